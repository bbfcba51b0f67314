import Verif.Lemmas.MinimumTree
import Verif.Lemmas.SameTree
import Verif.Props.HDBSCAN
import Verif.Props.BoruvkaThree
import Verif.Props.RoundingTree

/-
Properties C79 and C80: what the spanning tree and the dendrogram say about the data, and which
choices of the implementation (splits of the k-d tree, orders of hash maps, ties of `std::sort`) the
result of HDBSCAN depends on.
-/

namespace Verif.HDBSCAN

open Verif.KDTree Verif.Search Verif.Sorting Verif.Distances Verif.ClosestPair Verif.Graph
  Verif.Boruvka Verif.Dendrogram Verif.Rank Verif.Rounding

set_option linter.unusedSectionVars false

/-! ### statements about minimum spanning trees -/

section Any

variable {D : Type} [AddCommGroup D] [LinearOrder D] [IsOrderedAddMonoid D]

/-- **C79.** The edges of a minimum spanning tree of weight at most `s` (below `s`) link two samples
exactly when a chain of samples links them, each step of weight at most `s` (below `s`). -/
theorem C79_threshold {n : Nat} {wt : Nat → Nat → D} {T : List (Edge D)} (h : IsMinimum n wt T)
    (s : D) (a b : Nat) :
    (Linked (T.filter (fun e => e.2.2 ≤ s)) a b ↔ Reach n (fun a b => wt a b ≤ s) a b) ∧
    (Linked (T.filter (fun e => e.2.2 < s)) a b ↔ Reach n (fun a b => wt a b < s) a b) := by
  constructor
  · have := h.linked_iff (fun w => decide (w ≤ s))
      (fun v w hvw hw => decide_eq_true (hvw.trans (of_decide_eq_true hw))) a b
    simpa only [decide_eq_true_eq] using this
  · have := h.linked_iff (fun w => decide (w < s))
      (fun v w hvw hw => decide_eq_true (lt_of_le_of_lt hvw (of_decide_eq_true hw))) a b
    simpa only [decide_eq_true_eq] using this

/-- **C79.** All minimum spanning trees have the same weights, with the same multiplicities. -/
theorem C79_weights {n : Nat} {wt : Nat → Nat → D} {T T' : List (Edge D)} (h : IsMinimum n wt T)
    (h' : IsMinimum n wt T') : (T.map (fun e => e.2.2)).Perm (T'.map (fun e => e.2.2)) :=
  h.weights_perm h'

/-- **C79.** In the dendrogram made from a minimum spanning tree two samples are below a common node
of level at most `c` exactly when a chain of samples links them, each step at most `c`: single linkage
clustering. -/
theorem C79_dendrogram {n : Nat} {wt : Nat → Nat → D} {T es : List (Edge D)} (h : IsMinimum n wt T)
    (hw : ∀ a b, 0 ≤ wt a b) (hp : es.Perm T) (hs : es.Pairwise (fun a b => a.2.2 ≤ b.2.2)) :
    ∃ t, build es = some t ∧ ∀ c, 0 ≤ c → ∀ a b, a < n → b < n →
      (t.Under c a b ↔ Reach n (fun a b => wt a b ≤ c) a b) := by
  obtain ⟨t, h1, _, h2⟩ := C33_levels h.tree (fun e he => by rw [h.weights e he]; exact hw _ _) hp hs
  refine ⟨t, h1, fun c hc a b ha hb => ?_⟩
  rw [h2 c hc a b ha hb, (C79_threshold h c a b).1]

end Any

/-- The dendrograms of two minimum spanning trees with distinct weights are the same up to the order
of the children. -/
theorem iso_of_minimum {n : Nat} {wt : Nat → Nat → ℝ} {T T' : List (Edge ℝ)} (h : IsMinimum n wt T)
    (h' : IsMinimum n wt T') (hw : ∀ a b, 0 ≤ wt a b) (hd : (T.map (fun e => e.2.2)).Nodup)
    {sort sort' : List (Edge ℝ) → List (Edge ℝ)} (hs : SortsByWeight sort)
    (hs' : SortsByWeight sort') :
    ∃ t t', build (sort T) = some t ∧ build (sort' T') = some t' ∧ Good t ∧ Good t' ∧
      (∀ x, x ∈ t.leaves ↔ x < n) ∧ (∀ x, x ∈ t'.leaves ↔ x < n) ∧ Iso t t' := by
  have hd' : (T'.map (fun e => e.2.2)).Nodup := (h.weights_perm h').nodup_iff.1 hd
  have strict : ∀ {U : List (Edge ℝ)} {f : List (Edge ℝ) → List (Edge ℝ)}, SortsByWeight f →
      (U.map (fun e => e.2.2)).Nodup → (f U).Pairwise (fun a b => a.2.2 < b.2.2) := by
    intro U f hf hU
    have h1 : ((f U).map (fun e => e.2.2)).Nodup := ((hf.perm U).map _).nodup_iff.2 hU
    have h2 : (f U).Pairwise (fun a b => a.2.2 ≠ b.2.2) := List.pairwise_map.1 h1
    exact (hf.sorted U).imp₂ (fun a b hab hne => lt_of_le_of_ne hab hne) h2
  have lin : ∀ {U es : List (Edge ℝ)}, es.Perm U → ∀ c a b,
      Linked (es.filter (fun e => e.2.2 ≤ c)) a b ↔ Linked (U.filter (fun e => e.2.2 ≤ c)) a b :=
    fun hp c a b => ⟨linked_mono (fun e he => (hp.filter _).mem_iff.1 he),
      linked_mono (fun e he => (hp.filter _).mem_iff.2 he)⟩
  obtain ⟨t, e1, g1, l1, u1, s1, _⟩ := build_strict h.tree (hs.perm T)
    (fun e he => by rw [h.weights e ((hs.perm T).mem_iff.1 he)]; exact hw _ _) (hs.sorted T)
  obtain ⟨t', e2, g2, l2, u2, s2, _⟩ := build_strict h'.tree (hs'.perm T')
    (fun e he => by rw [h'.weights e ((hs'.perm T').mem_iff.1 he)]; exact hw _ _) (hs'.sorted T')
  refine ⟨t, t', e1, e2, g1, g2, l1, l2, iso_of_under t t' g1 g2 (s1 (strict hs hd))
    (s2 (strict hs' hd')) (fun i => (l1 i).trans (l2 i).symm) ?_⟩
  intro c hc a b ha hb
  rw [u1 c hc a b ((l1 a).1 ha) ((l1 b).1 hb), u2 c hc a b ((l1 a).1 ha) ((l1 b).1 hb),
    lin (hs.perm T), lin (hs'.perm T'), (C79_threshold h c a b).1, (C79_threshold h' c a b).1]

/-- The labels made from two minimum spanning trees with distinct weights describe the same
clusters. -/
theorem sameClusters_of_minimum {n : Nat} {wt : Nat → Nat → ℝ} {T T' : List (Edge ℝ)}
    (h : IsMinimum n wt T) (h' : IsMinimum n wt T') (hw : ∀ a b, 0 ≤ wt a b)
    (hd : (T.map (fun e => e.2.2)).Nodup) {sort sort' : List (Edge ℝ) → List (Edge ℝ)}
    (hs : SortsByWeight sort) (hs' : SortsByWeight sort') (inv : ℝ → ℝ) (m : Nat)
    (allow ret : Bool) :
    ∃ t t' f f', build (sort T) = some t ∧ build (sort' T') = some t' ∧
      extractFlat (condensedTree inv m allow ret t) = some f ∧
      extractFlat (condensedTree inv m allow ret t') = some f' ∧ SameClusters f f' := by
  obtain ⟨t, t', e1, e2, g1, g2, l1, l2, hi⟩ := iso_of_minimum h h' hw hd hs hs'
  obtain ⟨f, cs, a1, _, a2, _, _, _, ns, a3, a4⟩ := extract_full inv m allow ret t g1 n l1
  obtain ⟨f', cs', b1, _, b2, _, _, _, ns', b3, b4⟩ := extract_full inv m allow ret t' g2 n l2
  refine ⟨t, t', f, f', e1, e2, a1, b1, ?_⟩
  have hc := condensedTree_iso inv m allow ret hi
  have key : ∀ {cs cs' : List (CTree ℝ)} {ns ns' : List (CNode ℝ)},
      ns.map (fun n => n.slink) = cs.map (fun c => c.root.slink) →
      ns'.map (fun n => n.slink) = cs'.map (fun c => c.root.slink) →
      (∀ n ∈ ns, ∃ n' ∈ ns', Iso n.slink n'.slink) →
      ∀ c ∈ cs, ∃ d ∈ cs', ∀ i, i ∈ c.samples ↔ i ∈ d.samples := by
    intro cs cs' ns ns' h1 h2 h3 c hc
    have h4 : c.root.slink ∈ ns.map (fun n => n.slink) := by
      rw [h1]; exact List.mem_map.2 ⟨c, hc, rfl⟩
    obtain ⟨nd, hnd, h5⟩ := List.mem_map.1 h4
    obtain ⟨nd', hnd', h6⟩ := h3 nd hnd
    have h7 : nd'.slink ∈ cs'.map (fun c => c.root.slink) := by
      rw [← h2]; exact List.mem_map.2 ⟨nd', hnd', rfl⟩
    obtain ⟨d, hd, h8⟩ := List.mem_map.1 h7
    refine ⟨d, hd, fun i => ?_⟩
    unfold CTree.samples
    rw [h8, ← h5]
    exact h6.leaves i
  exact sameClusters_of a2 b2 (key a4 b4 (shallowest_iso hc a3 b3))
    (key b4 a4 (shallowest_iso hc.symm b3 a3))

/-! ### the trees of `make_tree` -/

/-- The weight used by `make_tree` with `k` nearest neighbours: the distance, or the mutual
reachability distance when `k` is more than one. -/
noncomputable def reachDist (k : Nat) (core : Nat → ℝ) (dist : Nat → Nat → ℝ) (a b : Nat) : ℝ :=
  if k ≤ 1 then dist a b else max (max (core a) (core b)) (dist a b)

theorem isKth_unique {k : Nat} {l : List ℝ} {v w : ℝ} (hv : IsKth k l v) (hw : IsKth k l w) :
    v = w := by
  have key : ∀ {v w : ℝ}, IsKth k l v → IsKth k l w → ¬ v < w := by
    intro v w hv hw hlt
    have h1 := hv.le
    have h2 := hw.lt
    have h3 : (l.filter (fun a => decide (a ≤ v))).length ≤
        (l.filter (fun a => decide (a < w))).length := by
      rw [← List.countP_eq_length_filter, ← List.countP_eq_length_filter]
      exact List.countP_mono_left (fun a _ ha => decide_eq_true
        (lt_of_le_of_lt (of_decide_eq_true ha) hlt))
    omega
  exact le_antisymm (not_lt.1 (key hw hv)) (not_lt.1 (key hv hw))

/-- With exact comparisons and at most three neighbours `make_tree` returns a minimum spanning
tree. -/
theorem makeTree_minimum (n : Nat) (hn : 0 < n) (nf : Nat)
    (x : Nat → Nat → ℝ) (dist : Nat → Nat → ℝ)
    (hd : ∀ q i, euclidean (row nf (x i)) (row nf (x q)) = some (dist q i))
    (policy : List Nat → Nat → Box ℝ → Nat) (bucketSize maxDepth : Nat)
    (hpol : ∀ idx d box, policy idx d box < nf) (vmax vlowest inf : ℝ)
    (hinf : ∀ q i, q < n → i < n → dist q i < inf)
    (ord : Orders ℝ) (hord : ord.Valid) (k : Nat) (hk : k ≤ 3) (core : Nat → ℝ)
    (hcore : 1 < k → ∀ q, q < n → IsKth (min k n) ((List.range n).map (dist q)) (core q)) :
    ∃ idx' t T, make (eqEps 0) x policy bucketSize maxDepth nf vmax vlowest (List.range n) =
        some (idx', t) ∧
      (∀ fuel, Nat.log 2 n + 1 ≤ fuel →
        makeTree x (fun v w => |v - w|) dist inf t ord n k fuel = some T) ∧
      IsMinimum n (reachDist k core dist) T := by
  by_cases hk1 : k ≤ 1
  · obtain ⟨idx', t, T, h1, h2, h3, h4, h5⟩ := makeTree_float n hn 0 le_rfl nf x dist hd policy
      bucketSize maxDepth hpol vmax vlowest inf hinf ord hord k hk1 (Nat.log 2 n + 1) (by omega)
    refine ⟨idx', t, T, h1, fun fuel hf => makeTree_mono hf h2, h3, ?_, ?_⟩
    · intro e he
      rw [reachDist, if_pos hk1]
      exact h4 e he
    · intro S hS hSw
      have := h5 S hS.vertices hS.connects (fun e he => by
        have := hSw e he
        rwa [reachDist, if_pos hk1] at this)
      simpa using this
  · -- from core distances up to a slack of zero
    have key : ∀ {T : List (Edge ℝ)} {core' : Nat → ℝ}, IsSpanningTree n T →
        (∀ q, q < n → IsKthUpTo (2 * (0 : ℝ)) (min k n) ((List.range n).map (dist q)) (core' q)) →
        (∀ e ∈ T, e.2.2 = max (max (core' e.1) (core' e.2.1)) (dist e.1 e.2.1)) →
        (∀ S : List (Edge ℝ), IsSpanningTree n S →
          (∀ e ∈ S, e.2.2 = max (max (core' e.1) (core' e.2.1)) (dist e.1 e.2.1)) →
          total T ≤ total S) → IsMinimum n (reachDist k core dist) T := by
      intro T core' hT hc hw hm
      have heq : ∀ q, q < n → core' q = core q := fun q hq => by
        have h7 := hc q hq
        exact isKth_unique ⟨h7.mem, h7.le, by simpa using h7.lt⟩ (hcore (by omega) q hq)
      refine ⟨hT, fun e he => ?_, fun S hS hSw => hm S hS fun e he => ?_⟩
      · have hv := hT.vertices e he
        rw [reachDist, if_neg hk1, ← heq _ hv.1, ← heq _ hv.2]
        exact hw e he
      · have hv := hS.vertices e he
        rw [heq _ hv.1, heq _ hv.2]
        have := hSw e he
        rwa [reachDist, if_neg hk1] at this
    by_cases hk2 : k = 2
    · obtain ⟨idx', t, T, h1, h2, h3, core', h4, h5, h6⟩ := C30_spanning n hn 0 le_rfl nf x dist hd
        policy bucketSize maxDepth hpol vmax vlowest inf hinf ord hord k (by omega) (by omega)
      exact ⟨idx', t, T, h1, h2, key h3 h4 h5 (fun S hS hw => by simpa using h6 hk2 S hS hw)⟩
    · have hk3 : k = 3 := by omega
      subst hk3
      obtain ⟨idx', t, T, h1, h2, h3, core', h4, h5, h6⟩ := C30_minimal_three n hn 0 le_rfl nf x dist
        hd policy bucketSize maxDepth hpol vmax vlowest inf hinf ord hord
      exact ⟨idx', t, T, h1, h2, key h3 h4 h5 (fun S hS hw => by simpa using h6 S hS hw)⟩

theorem reachDist_nonneg {nf : Nat} {x : Nat → Nat → ℝ} {dist : Nat → Nat → ℝ}
    (hd : ∀ q i, euclidean (row nf (x i)) (row nf (x q)) = some (dist q i)) (k : Nat)
    (core : Nat → ℝ) (a b : Nat) : 0 ≤ reachDist k core dist a b := by
  unfold reachDist
  split
  · exact dist_nonneg hd a b
  · exact le_max_of_le_right (dist_nonneg hd a b)

/-- **C79** from the data, exact comparisons, at most three neighbours: whatever the tree, the orders
of the hash maps and the sort, the dendrogram HDBSCAN builds is the single linkage clustering of the
samples: two samples are below a common node of level at most `c` exactly when a chain of samples
links them, each step at most `c`. -/
theorem C79_single_linkage (n : Nat) (hn : 0 < n) (nf : Nat)
    (x : Nat → Nat → ℝ) (dist : Nat → Nat → ℝ)
    (hd : ∀ q i, euclidean (row nf (x i)) (row nf (x q)) = some (dist q i))
    (policy : List Nat → Nat → Box ℝ → Nat) (bucketSize maxDepth : Nat)
    (hpol : ∀ idx d box, policy idx d box < nf) (vmax vlowest inf : ℝ)
    (hinf : ∀ q i, q < n → i < n → dist q i < inf)
    (ord : Orders ℝ) (hord : ord.Valid) (k : Nat) (hk : k ≤ 3) (core : Nat → ℝ)
    (hcore : 1 < k → ∀ q, q < n → IsKth (min k n) ((List.range n).map (dist q)) (core q))
    (sort : List (Edge ℝ) → List (Edge ℝ)) (hsort : SortsByWeight sort) :
    ∃ idx' t T root,
      make (eqEps 0) x policy bucketSize maxDepth nf vmax vlowest (List.range n) = some (idx', t) ∧
      (∀ fuel, Nat.log 2 n + 1 ≤ fuel →
        makeTree x (fun v w => |v - w|) dist inf t ord n k fuel = some T) ∧
      build (sort T) = some root ∧
      ∀ c, 0 ≤ c → ∀ a b, a < n → b < n →
        (root.Under c a b ↔ Reach n (fun a b => reachDist k core dist a b ≤ c) a b) := by
  obtain ⟨idx', t, T, h1, h2, h3⟩ := makeTree_minimum n hn nf x dist hd policy bucketSize maxDepth hpol
    vmax vlowest inf hinf ord hord k hk core hcore
  obtain ⟨root, h4, h5⟩ := C79_dendrogram h3 (reachDist_nonneg hd k core) (hsort.perm T)
    (hsort.sorted T)
  exact ⟨idx', t, T, root, h1, h2, h4, h5⟩

/-- **C79** with rounded distances, for data whose coordinates on each axis are equal or have a
computed difference above the tolerance of `common::equality`. -/
theorem C79_rounded {p : Nat} (R : Rounding p) (hp : 1 ≤ p) (n : Nat) (hn : 0 < n) (eps : ℝ)
    (he : 0 ≤ eps) (nf : Nat) (x : Nat → Nat → ℝ) (o : Order) (ho : o.Sums nf)
    (hsep : ∀ a i j, x i a = x j a ∨ eps < |R.rnd (x j a - x i a)|)
    (policy : List Nat → Nat → Box ℝ → Nat) (bucketSize maxDepth : Nat)
    (hpol : ∀ idx d box, policy idx d box < nf) (vmax vlowest inf : ℝ)
    (hinf : ∀ q i, q < n → i < n → distsR R o x q i < inf)
    (ord : Orders ℝ) (hord : ord.Valid) (k : Nat) (hk : k ≤ 1)
    (sort : List (Edge ℝ) → List (Edge ℝ)) (hsort : SortsByWeight sort) :
    ∃ idx' t T root, make (eqR R eps) x policy bucketSize maxDepth nf vmax vlowest (List.range n) =
        some (idx', t) ∧
      (∀ fuel, Nat.log 2 n + 1 ≤ fuel →
        makeTree x (gapR R) (distsR R o x) inf t ord n k fuel = some T) ∧
      build (sort T) = some root ∧
      ∀ c, 0 ≤ c → ∀ a b, a < n → b < n →
        (root.Under c a b ↔ Reach n (fun a b => distsR R o x a b ≤ c) a b) := by
  obtain ⟨idx', t, T, h1, h2, h3, h4, h5⟩ := C78_minimal_separated R hp n hn eps he nf x o ho hsep
    policy bucketSize maxDepth hpol vmax vlowest inf hinf ord hord k hk
  have hmin : IsMinimum n (distsR R o x) T :=
    ⟨h3, h4, fun S hS hw => h5 S hS.vertices hS.connects hw⟩
  obtain ⟨root, h6, h7⟩ := C79_dendrogram hmin (distsR_nonneg R o x) (hsort.perm T) (hsort.sorted T)
  exact ⟨idx', t, T, root, h1, h2, h6, h7⟩

/-- **C79.** The weights of the tree do not depend on the splits of the k-d tree, on its bucket size
and depth or on the orders of the hash maps. -/
theorem C79_options (n : Nat) (hn : 0 < n) (nf : Nat)
    (x : Nat → Nat → ℝ) (dist : Nat → Nat → ℝ)
    (hd : ∀ q i, euclidean (row nf (x i)) (row nf (x q)) = some (dist q i))
    (policy policy' : List Nat → Nat → Box ℝ → Nat) (bucketSize maxDepth bucketSize' maxDepth' : Nat)
    (hpol : ∀ idx d box, policy idx d box < nf) (hpol' : ∀ idx d box, policy' idx d box < nf)
    (vmax vlowest inf : ℝ) (hinf : ∀ q i, q < n → i < n → dist q i < inf)
    (ord ord' : Orders ℝ) (hord : ord.Valid) (hord' : ord'.Valid) (k : Nat) (hk : k ≤ 3)
    (core : Nat → ℝ)
    (hcore : 1 < k → ∀ q, q < n → IsKth (min k n) ((List.range n).map (dist q)) (core q)) :
    ∃ fuel idx idx' t t' T T',
      make (eqEps 0) x policy bucketSize maxDepth nf vmax vlowest (List.range n) = some (idx, t) ∧
      make (eqEps 0) x policy' bucketSize' maxDepth' nf vmax vlowest (List.range n) =
        some (idx', t') ∧
      makeTree x (fun v w => |v - w|) dist inf t ord n k fuel = some T ∧
      makeTree x (fun v w => |v - w|) dist inf t' ord' n k fuel = some T' ∧
      (T.map (fun e => e.2.2)).Perm (T'.map (fun e => e.2.2)) := by
  obtain ⟨idx, t, T, h1, h2, h3⟩ := makeTree_minimum n hn nf x dist hd policy bucketSize maxDepth hpol
    vmax vlowest inf hinf ord hord k hk core hcore
  obtain ⟨idx', t', T', h1', h2', h3'⟩ := makeTree_minimum n hn nf x dist hd policy' bucketSize'
    maxDepth' hpol' vmax vlowest inf hinf ord' hord' k hk core hcore
  exact ⟨_, idx, idx', t, t', T, T', h1, h1', h2 _ le_rfl, h2' _ le_rfl, h3.weights_perm h3'⟩

/-- **C80** (partial: at most three neighbours, and distinct weights, see `C80_ties`).  When the
weights of a minimum spanning tree are distinct, the clusters and the noise found by `predict` do not
depend on the splits of the k-d tree, on its bucket size and depth, on the orders of the hash maps or
on the sort; only the numbers of the clusters may change. -/
theorem C80_same_clusters_partial (n : Nat) (hn : 0 < n) (nf : Nat)
    (x : Nat → Nat → ℝ) (dist : Nat → Nat → ℝ)
    (hd : ∀ q i, euclidean (row nf (x i)) (row nf (x q)) = some (dist q i))
    (policy policy' : List Nat → Nat → Box ℝ → Nat) (bucketSize maxDepth bucketSize' maxDepth' : Nat)
    (hpol : ∀ idx d box, policy idx d box < nf) (hpol' : ∀ idx d box, policy' idx d box < nf)
    (vmax vlowest inf : ℝ) (hinf : ∀ q i, q < n → i < n → dist q i < inf)
    (ord ord' : Orders ℝ) (hord : ord.Valid) (hord' : ord'.Valid) (k : Nat) (hk : k ≤ 3)
    (core : Nat → ℝ)
    (hcore : 1 < k → ∀ q, q < n → IsKth (min k n) ((List.range n).map (dist q)) (core q))
    (sort sort' : List (Edge ℝ) → List (Edge ℝ)) (hsort : SortsByWeight sort)
    (hsort' : SortsByWeight sort') (inv : ℝ → ℝ) (minSize : Nat) (allow ret : Bool)
    (S : List (Edge ℝ)) (hS : IsMinimum n (reachDist k core dist) S)
    (hdis : (S.map (fun e => e.2.2)).Nodup) :
    ∃ idx idx' t t' f f',
      make (eqEps 0) x policy bucketSize maxDepth nf vmax vlowest (List.range n) = some (idx, t) ∧
      make (eqEps 0) x policy' bucketSize' maxDepth' nf vmax vlowest (List.range n) =
        some (idx', t') ∧
      (∀ fuel, Nat.log 2 n + 1 ≤ fuel →
        predict x (fun v w => |v - w|) dist inf t ord sort inv n k minSize allow ret fuel = some f ∧
        predict x (fun v w => |v - w|) dist inf t' ord' sort' inv n k minSize allow ret fuel =
          some f') ∧
      SameClusters f f' := by
  obtain ⟨idx, t, T, h1, h2, h3⟩ := makeTree_minimum n hn nf x dist hd policy bucketSize maxDepth hpol
    vmax vlowest inf hinf ord hord k hk core hcore
  obtain ⟨idx', t', T', h1', h2', h3'⟩ := makeTree_minimum n hn nf x dist hd policy' bucketSize'
    maxDepth' hpol' vmax vlowest inf hinf ord' hord' k hk core hcore
  obtain ⟨r, r', f, f', e1, e2, e3, e4, e5⟩ := sameClusters_of_minimum h3 h3'
    (reachDist_nonneg hd k core) ((hS.weights_perm h3).nodup_iff.1 hdis) hsort hsort' inv minSize allow
    ret
  refine ⟨idx, idx', t, t', f, f', h1, h1', fun fuel hf => ⟨?_, ?_⟩, e5⟩
  · simp only [predict, h2 fuel hf, Option.bind_eq_bind, Option.bind_some, e1, e3]
  · simp only [predict, h2' fuel hf, Option.bind_eq_bind, Option.bind_some, e2, e4]

/-- The weights of a spanning tree are distinct when the distances of different pairs are. -/
theorem nodup_of_distinct {n : Nat} {wt : Nat → Nat → ℝ} {T : List (Edge ℝ)}
    (hT : IsSpanningTree n T) (hw : ∀ e ∈ T, e.2.2 = wt e.1 e.2.1)
    (hne : ∀ a b a' b', a < n → b < n → a' < n → b' < n → a ≠ b → a' ≠ b' → wt a b = wt a' b' →
      (a = a' ∧ b = b') ∨ (a = b' ∧ b = a')) : (T.map (fun e => e.2.2)).Nodup := by
  have hloop : ∀ e ∈ T, e.1 ≠ e.2.1 := by
    intro e he heq
    obtain ⟨pre, post, hpp⟩ := List.append_of_mem he
    exact hT.acyclic pre e post hpp (heq ▸ Linked.refl _)
  rw [List.Nodup, List.pairwise_map]
  have hsplit : ∀ (l pre : List (Edge ℝ)), T = pre ++ l →
      l.Pairwise (fun e f => e.2.2 ≠ f.2.2) := by
    intro l
    induction l with
    | nil => intro _ _; exact .nil
    | cons e l ih =>
      intro pre hpre
      refine List.pairwise_cons.2 ⟨?_, ih (pre ++ [e]) (by simp [hpre])⟩
      intro f hf heq
      have he : e ∈ T := by rw [hpre]; simp
      have hf' : f ∈ T := by rw [hpre]; simp [hf]
      have hve := hT.vertices e he
      have hvf := hT.vertices f hf'
      rw [hw e he, hw f hf'] at heq
      refine hT.acyclic pre e l hpre ?_
      have hlk : Linked (pre ++ l) f.1 f.2.1 := Linked.edge (by simp [hf])
      rcases hne _ _ _ _ hve.1 hve.2 hvf.1 hvf.2 (hloop e he) (hloop f hf') heq with ⟨h1, h2⟩ | ⟨h1, h2⟩
      · rw [h1, h2]; exact hlk
      · rw [h1, h2]; exact hlk.symm
  exact hsplit T [] rfl

/-- **C80**, one neighbour: when no two pairs of samples have the same distance, the clusters found
by `predict` do not depend on tree, orders and sort. -/
theorem C80_distinct_distances (n : Nat) (hn : 0 < n) (nf : Nat)
    (x : Nat → Nat → ℝ) (dist : Nat → Nat → ℝ)
    (hd : ∀ q i, euclidean (row nf (x i)) (row nf (x q)) = some (dist q i))
    (policy policy' : List Nat → Nat → Box ℝ → Nat) (bucketSize maxDepth bucketSize' maxDepth' : Nat)
    (hpol : ∀ idx d box, policy idx d box < nf) (hpol' : ∀ idx d box, policy' idx d box < nf)
    (vmax vlowest inf : ℝ) (hinf : ∀ q i, q < n → i < n → dist q i < inf)
    (ord ord' : Orders ℝ) (hord : ord.Valid) (hord' : ord'.Valid) (k : Nat) (hk : k ≤ 1)
    (sort sort' : List (Edge ℝ) → List (Edge ℝ)) (hsort : SortsByWeight sort)
    (hsort' : SortsByWeight sort') (inv : ℝ → ℝ) (minSize : Nat) (allow ret : Bool)
    (hne : ∀ a b a' b', a < n → b < n → a' < n → b' < n → a ≠ b → a' ≠ b' →
      dist a b = dist a' b' → (a = a' ∧ b = b') ∨ (a = b' ∧ b = a')) :
    ∃ idx idx' t t' f f',
      make (eqEps 0) x policy bucketSize maxDepth nf vmax vlowest (List.range n) = some (idx, t) ∧
      make (eqEps 0) x policy' bucketSize' maxDepth' nf vmax vlowest (List.range n) =
        some (idx', t') ∧
      (∀ fuel, Nat.log 2 n + 1 ≤ fuel →
        predict x (fun v w => |v - w|) dist inf t ord sort inv n k minSize allow ret fuel = some f ∧
        predict x (fun v w => |v - w|) dist inf t' ord' sort' inv n k minSize allow ret fuel =
          some f') ∧
      SameClusters f f' := by
  obtain ⟨_, _, S, _, _, hS⟩ := makeTree_minimum n hn nf x dist hd policy bucketSize maxDepth hpol
    vmax vlowest inf hinf ord hord k (by omega) (fun _ => 0) (fun h => absurd h (by omega))
  refine C80_same_clusters_partial n hn nf x dist hd policy policy' bucketSize maxDepth bucketSize'
    maxDepth' hpol hpol' vmax vlowest inf hinf ord ord' hord hord' k (by omega) (fun _ => 0)
    (fun h => absurd h (by omega)) sort sort' hsort hsort' inv minSize allow ret S hS
    (nodup_of_distinct hS.tree hS.weights ?_)
  intro a b a' b' ha hb ha' hb' h1 h2 h3
  rw [reachDist, reachDist, if_pos hk, if_pos hk] at h3
  exact hne a b a' b' ha hb ha' hb' h1 h2 h3

/-! ### concrete cases -/

/-- Samples 0, 1, 2, 4, 7, 8, 9 on a line. -/
def tieX : Nat → Nat → ℚ := fun i _ => ([0, 1, 2, 4, 7, 8, 9] : List ℚ).getD i 0

/-- Two sorts by weight that break ties in the two possible ways. -/
def sortUp (l : List (Edge ℚ)) : List (Edge ℚ) := l.insertionSort (fun a b => a.2.2 ≤ b.2.2)
def sortDown (l : List (Edge ℚ)) : List (Edge ℚ) := sortUp l.reverse

theorem sortUp_sorts : SortsByWeight sortUp :=
  haveI : Std.Total (fun a b : Edge ℚ => a.2.2 ≤ b.2.2) := ⟨fun a b => le_total a.2.2 b.2.2⟩
  haveI : IsTrans (Edge ℚ) (fun a b => a.2.2 ≤ b.2.2) := ⟨fun _ _ _ h h' => h.trans h'⟩
  ⟨fun l => List.perm_insertionSort _ l, fun l => List.pairwise_insertionSort _ l⟩

theorem sortDown_sorts : SortsByWeight sortDown :=
  ⟨fun l => (sortUp_sorts.perm _).trans l.reverse_perm, fun l => sortUp_sorts.sorted _⟩

def idOrdersQ : Orders ℚ := ⟨fun _ l => l, fun _ l => l⟩

/-- `predict` on `tieX` with three neighbours and `min_cluster_size` 3. -/
def tiePredict (k : Nat) (sort : List (Edge ℚ) → List (Edge ℚ)) : Option (List Nat) :=
  (make eqExact tieX (fun _ _ _ => 0) 8 0 1 0 0 (List.range 7)).bind fun p =>
    predict tieX (fun v w => |v - w|) (fun a b => |tieX a 0 - tieX b 0|) 100 p.2 idOrdersQ sort invQ 7
      k 3 false false 5

/-- **C80 is false of the code when weights are equal**, and with mutual reachability distances equal
weights are the rule: the sample 4 has core distance 3, so both its edges, to the group 0, 1, 2 at
distance 2 and to the group 7, 8, 9 at distance 3, weigh 3.  Which group it joins depends on the way
`std::sort` orders equal weights; joining the group further away is possible. -/
theorem C80_ties :
    tiePredict 3 sortUp = some [2, 2, 2, 2, 1, 1, 1] ∧
    tiePredict 3 sortDown = some [2, 2, 2, 1, 1, 1, 1] ∧
    SortsByWeight sortUp ∧ SortsByWeight sortDown :=
  ⟨by decide +kernel, by decide +kernel, sortUp_sorts, sortDown_sorts⟩

/-- Without core distances the sample 4 is in the nearer group for both sorts. -/
example : tiePredict 1 sortUp = some [2, 2, 2, 2, 1, 1, 1] ∧
    tiePredict 1 sortDown = some [2, 2, 2, 2, 1, 1, 1] :=
  ⟨by decide +kernel, by decide +kernel⟩

/-- The two results are not the same clusters. -/
example : ¬ SameClusters [2, 2, 2, 2, 1, 1, 1] [2, 2, 2, 1, 1, 1, 1] := by
  intro h
  have := (h.same 0 3).1 rfl
  simp at this

/-- **C79 is false of the code for four neighbours**: the samples 1 and 3 of `witX` have mutual
reachability distance 7, but no edge of the returned tree weighs 7 or less, so that they are joined
only at level 9. -/
theorem C79_four_neighbours_counterexample : ∃ T, witTree 4 3 = some T ∧
    (∀ q, q < 5 → IsKth 4 ((List.range 5).map (fun i => |witX i 0 - witX q 0|)) (witCore q)) ∧
    Reach 5 (fun a b => max (max (witCore a) (witCore b)) |witX b 0 - witX a 0| ≤ 7) 1 3 ∧
    ¬ Linked (T.filter (fun e => e.2.2 ≤ 7)) 1 3 := by
  refine ⟨[(0, 1, 11), (1, 4, 9), (2, 3, 13), (3, 4, 9)], by decide +kernel, witCore_isKth,
    .rel _ _ ⟨by norm_num, by norm_num, by decide +kernel⟩, ?_⟩
  intro h
  have h0 : ([(0, 1, 11), (1, 4, 9), (2, 3, 13), (3, 4, 9)] : List (Edge ℤ)).filter
      (fun e => e.2.2 ≤ 7) = [] := by decide +kernel
  rw [h0, linked_iff_conn, conn_nil (fun _ _ h => h)] at h
  exact absurd h (by norm_num)

/-- Samples 0, 1, 3, 7 on a line: no two pairs have the same distance. -/
noncomputable def lineX : Nat → Nat → ℝ := fun i _ => ([0, 1, 3, 7] : List ℝ).getD i 0

theorem lineX_dist (q i : Nat) :
    euclidean (row 1 (lineX i)) (row 1 (lineX q)) = some |lineX i 0 - lineX q 0| := by
  rw [euclidean_eq (by simp [row])]
  simp only [row, List.range_one, List.map_cons, List.map_nil, List.zipWith_cons_cons,
    List.zipWith_nil_right, List.sum_cons, List.sum_nil, add_zero, Real.sqrt_mul_self_eq_abs]

theorem lineX_distinct : ∀ a b a' b', a < 4 → b < 4 → a' < 4 → b' < 4 → a ≠ b → a' ≠ b' →
    |lineX b 0 - lineX a 0| = |lineX b' 0 - lineX a' 0| → (a = a' ∧ b = b') ∨ (a = b' ∧ b = a') := by
  have hq : ∀ a b a' b' : Fin 4, a ≠ b → a' ≠ b' →
      |([0, 1, 3, 7] : List ℤ).getD b 0 - ([0, 1, 3, 7] : List ℤ).getD a 0| =
        |([0, 1, 3, 7] : List ℤ).getD b' 0 - ([0, 1, 3, 7] : List ℤ).getD a' 0| →
      (a = a' ∧ b = b') ∨ (a = b' ∧ b = a') := by decide +kernel
  have hc : ∀ a, a < 4 → lineX a 0 = ((([0, 1, 3, 7] : List ℤ).getD a 0 : ℤ) : ℝ) := by
    intro a ha
    have : a = 0 ∨ a = 1 ∨ a = 2 ∨ a = 3 := by omega
    rcases this with rfl | rfl | rfl | rfl <;> simp [lineX]
  intro a b a' b' ha hb ha' hb' h1 h2 h3
  rw [hc a ha, hc b hb, hc a' ha', hc b' hb'] at h3
  have := hq ⟨a, ha⟩ ⟨b, hb⟩ ⟨a', ha'⟩ ⟨b', hb'⟩ (by simpa using h1) (by simpa using h2)
    (by exact_mod_cast h3)
  simpa only [Fin.mk.injEq] using this

/-- C79 and C80 apply to these samples. -/
example (ord ord' : Orders ℝ) (hord : ord.Valid) (hord' : ord'.Valid)
    (sort : List (Edge ℝ) → List (Edge ℝ)) (hsort : SortsByWeight sort) :=
  C80_distinct_distances 4 (by norm_num) 1 lineX (fun q i => |lineX i 0 - lineX q 0|) lineX_dist
    (fun _ _ _ => 0) (fun _ _ _ => 0) 1 8 2 3 (fun _ _ _ => one_pos) (fun _ _ _ => one_pos) 0 0 100
    (by
      have hb : ∀ i, 0 ≤ lineX i 0 ∧ lineX i 0 ≤ 7 := by
        intro i
        unfold lineX
        rcases i with _ | _ | _ | _ | i <;> simp <;> norm_num
      intro q i _ _
      rw [abs_lt]
      have := hb q; have := hb i
      constructor <;> linarith)
    ord ord' hord hord' 1 le_rfl sort sort hsort hsort (fun v => 1 / v) 2 true false lineX_distinct

end Verif.HDBSCAN
