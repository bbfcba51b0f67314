import Verif.Props.Search

/-
Property C75: batches of buffers, and one buffer used with several trees.
-/

namespace Verif.Search

open Verif.KDTree Verif.Buffer Verif.Sorting Verif.Distances

set_option linter.unusedSectionVars false

section Generic

variable {K : Type} [LinearOrder K] {D : Type} [LinearOrder D]

/-- **C75**, batches: the buffers come back in the order they were given, each as a search with this
buffer alone would leave it; the batch fails exactly when one of the searches fails. -/
theorem C75_batch {B : Type} (x : Nat → Nat → K) (ops : (Nat → K) → BufferOps B)
    (t : KDTree.Tree K) (batch out : List ((Nat → K) × B)) :
    searchBatch x ops t batch = some out ↔
      List.Forall₂ (fun i o => o.1 = i.1 ∧ search x i.1 (ops i.1) t i.2 = some o.2) batch out := by
  induction batch generalizing out with
  | nil => simp [searchBatch, eq_comm]
  | cons i batch ih =>
    obtain ⟨q, b⟩ := i
    simp only [searchBatch, Option.bind_eq_bind, Option.bind_eq_some_iff, Option.some.injEq]
    constructor
    · rintro ⟨b', h1, rest, h2, rfl⟩
      exact List.Forall₂.cons ⟨rfl, h1⟩ ((ih rest).1 h2)
    · intro h
      cases h with
      | @cons _ o _ out' ho hr =>
        obtain ⟨q', b'⟩ := o
        obtain ⟨h1, h2⟩ := ho
        dsimp only at h1 h2
        subst h1
        exact ⟨b', h2, out', (ih out').2 hr, rfl⟩

/-- `walk_spec` for several trees in turn. -/
theorem chain_spec {B : Type} {x : Nat → Nat → K} {q : Nat → K} {gap : K → K → D}
    {cand : Nat → Option D} {ops : BufferOps B} {proj : B → Buf D} {Good : B → Prop}
    {valid : Nat → Prop} (hsim : Sim x q gap cand ops proj Good valid) {near : D → D → Prop}
    (hr : ∀ d, near d d) {L R : Nat → Nat → Nat → Prop}
    (hprune : PruneOk x q gap cand L R near)
    {inf : D} {cap : Nat}
    (hcap : cap ≠ 0 ∨ (∀ p a, gap (x p a) (q a) < inf) ∨ ∀ i, valid i → cand i ≠ none) :
    ∀ (ts : List (KDTree.Tree K)) (s : B) (kept all : List (Nat × D)),
      (∀ t ∈ ts, t.SplitBy L R ∧ ∀ i ∈ t.indices, valid i) →
      Good s → WF inf cap (proj s) kept all → Genuine cand kept →
      ∃ s' kept' cs', searchChain x q ops ts s = some s' ∧ Good s' ∧
        NearList near (cands cand (ts.flatMap Tree.indices)) cs' ∧
        WF inf cap (proj s') kept' (all ++ cs') ∧ Genuine cand kept' := by
  intro ts
  induction ts with
  | nil =>
    intro s kept all _ hg h hk
    exact ⟨s, kept, [], rfl, hg, List.Forall₂.nil, by simpa using h, hk⟩
  | cons t ts ih =>
    intro s kept all ht hg h hk
    obtain ⟨ht1, ht2⟩ := ht t (by simp)
    obtain ⟨s1, k1, c1, e1, hg1, hn1, h1, hk1⟩ := walk_spec hsim hr hprune
      (hcap.imp id (Or.imp GapBelow.of_lt id)) t s kept all ht1 ht2
      hg h hk
    obtain ⟨s2, k2, c2, e2, hg2, hn2, h2, hk2⟩ := ih s1 k1 _
      (fun t ht' => ht t (by simp [ht'])) hg1 h1 hk1
    refine ⟨s2, k2, c1 ++ c2, ?_, hg2, ?_, by simpa using h2, hk2⟩
    · unfold searchChain at e2 ⊢
      simp only [List.foldlM_cons, Option.bind_eq_bind, search_eq_walk, e1, Option.bind_some] at e2 ⊢
      exact e2
    · rw [List.flatMap_cons, cands_append]
      exact hn1.append hn2

/-- The result of a chain started with an empty buffer. -/
theorem chain_result {x : Nat → Nat → K} {q : Nat → K} {gap : K → K → D}
    {cand : Nat → Option D} {near : D → D → Prop}
    (hr : ∀ d, near d d) {L R : Nat → Nat → Nat → Prop}
    (hprune : PruneOk x q gap cand L R near) {inf : D} {cap : Nat} (hcap : 1 ≤ cap)
    (hcap2 : cap < 2 ^ 64) (ts : List (KDTree.Tree K)) (hts : ∀ t ∈ ts, t.SplitBy L R) :
    ∃ b kept, searchChain x q (staticOps x q gap cand) ts (Buffer.mk inf cap) = some b ∧
      b.indices.length = b.distances.length ∧ b.indices.zip b.distances = kept ∧
      (∃ rest, (kept ++ rest).Perm (cands cand (ts.flatMap Tree.indices)) ∧
        ∀ a ∈ kept, ∀ b ∈ rest, ∃ d', near b.2 d' ∧ a.2 ≤ d') ∧
      kept.length = min cap (cands cand (ts.flatMap Tree.indices)).length := by
  obtain ⟨b, kept, cs', e, _, hn, hw, hgen⟩ := chain_spec (sim_static x q gap cand) hr hprune
    (Or.inl (by omega : cap ≠ 0)) ts (Buffer.mk inf cap) [] []
    (fun t ht => ⟨hts t ht, fun _ _ => trivial⟩) trivial (WF.init inf cap hcap2)
    (by intro a ha; simp at ha)
  obtain ⟨rest', hp, hle⟩ := hw.best.1
  have h1 := hw.idx
  have h2 := hw.dst
  have h3 := hw.best.2
  simp only [id, List.nil_append] at hp h1 h2 h3
  refine ⟨b, kept, e, by rw [h1, h2]; simp, by rw [h1, h2, zip_map_fst_snd],
    kept_of_near hn hgen hp hle, ?_⟩
  rw [h3, hn.length_eq, capEff_of_pos hcap]

theorem flatMap_indices_perm {R : List Nat → KDTree.Tree K → Prop}
    (hR : ∀ part t, R part t → t.indices.Perm part) {parts : List (List Nat)}
    {ts : List (KDTree.Tree K)} (h : List.Forall₂ R parts ts) :
    (ts.flatMap Tree.indices).Perm parts.flatten := by
  induction h with
  | nil => simp
  | cons h1 _ ih =>
    simp only [List.flatMap_cons, List.flatten_cons]
    exact (hR _ _ h1).append ih

theorem forall₂_right {α β : Type} {R : α → β → Prop} {P : β → Prop} (hP : ∀ a b, R a b → P b)
    {l : List α} {l' : List β} (h : List.Forall₂ R l l') : ∀ b ∈ l', P b := by
  induction h with
  | nil => simp
  | cons h1 _ ih =>
    intro b hb
    rcases List.mem_cons.1 hb with rfl | hb
    · exact hP _ _ h1
    · exact ih b hb

end Generic

/-- `t` is a k-d tree over the samples `part`, built with some options on integral data. -/
def TreeOf {K : Type} [LinearOrder K] (nf : Nat) (x : Nat → Nat → K) (part : List Nat)
    (t : KDTree.Tree K) : Prop :=
  ∃ policy bucketSize maxDepth vmax vlowest idx', (∀ idx d box, policy idx d box < nf) ∧
    make eqExact x policy bucketSize maxDepth nf vmax vlowest part = some (idx', t)

/-- `t` is a k-d tree over the samples `part`, built with some options on floating data. -/
def TreeOfFloat (eps : ℝ) (nf : Nat) (x : Nat → Nat → ℝ) (part : List Nat)
    (t : KDTree.Tree ℝ) : Prop :=
  ∃ policy bucketSize maxDepth vmax vlowest idx', (∀ idx d box, policy idx d box < nf) ∧
    make (eqEps eps) x policy bucketSize maxDepth nf vmax vlowest part = some (idx', t)

/-- **C75**, one buffer searched in turn in trees over several parts of a signed integral data set:
it ends with the `k` nearest samples of all parts together. -/
theorem C75_chain_signed (nf : Nat) (x : Nat → Nat → ℤ) (q : Nat → ℤ) (dist : Nat → ℤ)
    (hd : ∀ i, manhattan (row nf (x i)) (row nf q) = some (dist i)) (inf : ℤ)
    (k : Nat) (hk : 1 ≤ k) (hk2 : k < 2 ^ 64) (parts : List (List Nat)) (ts : List (KDTree.Tree ℤ))
    (hts : List.Forall₂ (TreeOf nf x) parts ts) :
    ∃ b, searchChain x q (staticOps x q (fun v w => |v - w|) (candAll dist)) ts (Buffer.mk inf k) =
        some b ∧
      b.indices.length = b.distances.length ∧
      IsKNearest k (b.indices.zip b.distances) (parts.flatten.map (fun i => (i, dist i))) := by
  have key : ∀ part t, TreeOf nf x part t → t.indices.Perm part ∧
      t.SplitBy (fun a i p => a < nf ∧ x i a < x p a) (fun a p i => a < nf ∧ x p a ≤ x i a) := by
    rintro part t ⟨policy, bs, md, vmax, vlow, idx', hpol, e⟩
    obtain ⟨idx'', t', e', hp, hi, _, ho, _, ha, _⟩ := make_exact x policy bs md nf hpol vmax vlow part
    rw [e] at e'
    obtain ⟨rfl, rfl⟩ := Prod.mk.inj (Option.some.inj e')
    exact ⟨hi ▸ hp, splitBy_axes ho ha⟩
  obtain ⟨b, kept, e, h1, h2, ⟨rest, hr1, hr2⟩, hl⟩ := chain_result (near := Eq) (fun _ => rfl)
    (pruneOk_exact (gapSound_manhattan hd) (cand := candAll dist)
      (fun i d h => by simp [candAll] at h; exact h.symm)) (inf := inf) hk hk2 ts
    (forall₂_right (fun part t h => (key part t h).2) hts)
  have hcp := cands_perm (cand := candAll dist)
    (flatMap_indices_perm (fun part t h => (key part t h).1) hts)
  rw [cands_all dist parts.flatten] at hcp
  refine ⟨b, e, h1, ?_⟩
  rw [h2]
  refine ⟨⟨rest, hr1.trans hcp, ?_⟩, ?_⟩
  · intro a ha b hb
    obtain ⟨d', rfl, h⟩ := hr2 a ha b hb
    exact h
  · rw [hl, hcp.length_eq]

/-- **C75**, the same on floating data, up to `2 * eps` however many trees are searched. -/
theorem C75_chain_float (eps : ℝ) (he : 0 ≤ eps) (nf : Nat) (x : Nat → Nat → ℝ) (q : Nat → ℝ)
    (dist : Nat → ℝ) (hd : ∀ i, euclidean (row nf (x i)) (row nf q) = some (dist i)) (inf : ℝ)
    (k : Nat) (hk : 1 ≤ k) (hk2 : k < 2 ^ 64) (parts : List (List Nat)) (ts : List (KDTree.Tree ℝ))
    (hts : List.Forall₂ (TreeOfFloat eps nf x) parts ts) :
    ∃ b, searchChain x q (staticOps x q (fun v w => |v - w|) (candAll dist)) ts (Buffer.mk inf k) =
        some b ∧
      b.indices.length = b.distances.length ∧
      IsKNearestUpTo (2 * eps) k (b.indices.zip b.distances)
        (parts.flatten.map (fun i => (i, dist i))) := by
  have key : ∀ part t, TreeOfFloat eps nf x part t → t.indices.Perm part ∧
      t.SplitBy (fun a i p => a < nf ∧ x i a ≤ x p a + 2 * eps)
        (fun a p i => a < nf ∧ x p a ≤ x i a + 2 * eps) := by
    rintro part t ⟨policy, bs, md, vmax, vlow, idx', hpol, e⟩
    obtain ⟨idx'', t', e', hp, hi, _, ho, _, ha, _⟩ :=
      make_float eps he x policy bs md nf hpol vmax vlow part
    rw [e] at e'
    obtain ⟨rfl, rfl⟩ := Prod.mk.inj (Option.some.inj e')
    exact ⟨hi ▸ hp, splitBy_axes ho ha⟩
  obtain ⟨b, kept, e, h1, h2, ⟨rest, hr1, hr2⟩, hl⟩ := chain_result
    (near := fun d d' => d' ≤ d + 2 * eps) (fun d => by linarith)
    (pruneOk_float he hd (cand := candAll dist)
      (fun i d h => by simp [candAll] at h; exact h.symm)) (inf := inf) hk hk2 ts
    (forall₂_right (fun part t h => (key part t h).2) hts)
  have hcp := cands_perm (cand := candAll dist)
    (flatMap_indices_perm (fun part t h => (key part t h).1) hts)
  rw [cands_all dist parts.flatten] at hcp
  refine ⟨b, e, h1, ?_⟩
  rw [h2]
  refine ⟨⟨rest, hr1.trans hcp, ?_⟩, ?_⟩
  · intro a ha b hb
    obtain ⟨d', h, h'⟩ := hr2 a ha b hb
    exact h'.trans h
  · rw [hl, hcp.length_eq]

/-- **C75**, batch of empty buffers with their own queries and capacities on signed integral data:
every buffer ends with the nearest samples of its own query. -/
theorem C75_batch_signed (nf : Nat) (x : Nat → Nat → ℤ) (dist : (Nat → ℤ) → Nat → ℤ)
    (hd : ∀ q i, manhattan (row nf (x i)) (row nf q) = some (dist q i))
    (policy : List Nat → Nat → Box ℤ → Nat) (bucketSize maxDepth : Nat)
    (hpol : ∀ idx d box, policy idx d box < nf) (vmax vlowest inf : ℤ) (idx : List Nat)
    (queries : List ((Nat → ℤ) × Nat)) (hk : ∀ c ∈ queries, 1 ≤ c.2 ∧ c.2 < 2 ^ 64) :
    ∃ idx' t out, make eqExact x policy bucketSize maxDepth nf vmax vlowest idx = some (idx', t) ∧
      searchBatch x (fun q => staticOps x q (fun v w => |v - w|) (candAll (dist q))) t
        (queries.map (fun c => (c.1, Buffer.mk inf c.2))) = some out ∧
      List.Forall₂ (fun c o => o.1 = c.1 ∧ o.2.indices.length = o.2.distances.length ∧
        IsKNearest c.2 (o.2.indices.zip o.2.distances) (idx.map (fun i => (i, dist c.1 i))))
        queries out := by
  obtain ⟨idx', t, e, _⟩ := make_exact x policy bucketSize maxDepth nf hpol vmax vlowest idx
  suffices h : ∃ out, searchBatch x
      (fun q => staticOps x q (fun v w => |v - w|) (candAll (dist q))) t
        (queries.map (fun c => (c.1, Buffer.mk inf c.2))) = some out ∧
      List.Forall₂ (fun c o => o.1 = c.1 ∧ o.2.indices.length = o.2.distances.length ∧
        IsKNearest c.2 (o.2.indices.zip o.2.distances) (idx.map (fun i => (i, dist c.1 i))))
        queries out by
    obtain ⟨out, h1, h2⟩ := h
    exact ⟨idx', t, out, e, h1, h2⟩
  induction queries with
  | nil => exact ⟨[], rfl, List.Forall₂.nil⟩
  | cons c queries ih =>
    obtain ⟨out, h1, h2⟩ := ih (fun c hc => hk c (by simp [hc]))
    obtain ⟨hk1, hk2⟩ := hk c (by simp)
    obtain ⟨idx'', t', b, e', hs, hlen, hb⟩ := C14_knn_signed nf x c.1 (dist c.1) (hd c.1) policy
      bucketSize maxDepth hpol vmax vlowest inf idx c.2 hk1 hk2
    rw [e] at e'
    obtain ⟨rfl, rfl⟩ := Prod.mk.inj (Option.some.inj e')
    refine ⟨(c.1, b) :: out, ?_, List.Forall₂.cons ⟨rfl, hlen, hb⟩ h2⟩
    simp [searchBatch, hs, h1]

/-- **C75**, batch on floating data, up to `2 * eps`. -/
theorem C75_batch_float (eps : ℝ) (he : 0 ≤ eps) (nf : Nat) (x : Nat → Nat → ℝ)
    (dist : (Nat → ℝ) → Nat → ℝ)
    (hd : ∀ q i, euclidean (row nf (x i)) (row nf q) = some (dist q i))
    (policy : List Nat → Nat → Box ℝ → Nat) (bucketSize maxDepth : Nat)
    (hpol : ∀ idx d box, policy idx d box < nf) (vmax vlowest inf : ℝ) (idx : List Nat)
    (queries : List ((Nat → ℝ) × Nat)) (hk : ∀ c ∈ queries, 1 ≤ c.2 ∧ c.2 < 2 ^ 64) :
    ∃ idx' t out, make (eqEps eps) x policy bucketSize maxDepth nf vmax vlowest idx =
        some (idx', t) ∧
      searchBatch x (fun q => staticOps x q (fun v w => |v - w|) (candAll (dist q))) t
        (queries.map (fun c => (c.1, Buffer.mk inf c.2))) = some out ∧
      List.Forall₂ (fun c o => o.1 = c.1 ∧ o.2.indices.length = o.2.distances.length ∧
        IsKNearestUpTo (2 * eps) c.2 (o.2.indices.zip o.2.distances)
          (idx.map (fun i => (i, dist c.1 i)))) queries out := by
  obtain ⟨idx', t, e, _⟩ := make_float eps he x policy bucketSize maxDepth nf hpol vmax vlowest idx
  suffices h : ∃ out, searchBatch x
      (fun q => staticOps x q (fun v w => |v - w|) (candAll (dist q))) t
        (queries.map (fun c => (c.1, Buffer.mk inf c.2))) = some out ∧
      List.Forall₂ (fun c o => o.1 = c.1 ∧ o.2.indices.length = o.2.distances.length ∧
        IsKNearestUpTo (2 * eps) c.2 (o.2.indices.zip o.2.distances)
          (idx.map (fun i => (i, dist c.1 i)))) queries out by
    obtain ⟨out, h1, h2⟩ := h
    exact ⟨idx', t, out, e, h1, h2⟩
  induction queries with
  | nil => exact ⟨[], rfl, List.Forall₂.nil⟩
  | cons c queries ih =>
    obtain ⟨out, h1, h2⟩ := ih (fun c hc => hk c (by simp [hc]))
    obtain ⟨hk1, hk2⟩ := hk c (by simp)
    obtain ⟨idx'', t', b, e', hs, hlen, hb⟩ := C14_knn_float eps he nf x c.1 (dist c.1) (hd c.1)
      policy bucketSize maxDepth hpol vmax vlowest inf idx c.2 hk1 hk2
    rw [e] at e'
    obtain ⟨rfl, rfl⟩ := Prod.mk.inj (Option.some.inj e')
    refine ⟨(c.1, b) :: out, ?_, List.Forall₂.cons ⟨rfl, hlen, hb⟩ h2⟩
    simp [searchBatch, hs, h1]

/-! ### concrete cases -/

/-- A tree over samples 0-2 and one over samples 3-6 of the example; the query is (5, 3). -/
def chainOf (parts : List (List Nat)) (k : Nat) : Option (List Nat × List ℤ) := do
  let ts ← parts.mapM (fun part =>
    make eqExact exampleX (fun _ d _ => d % 2) 1 5 2 1000 (-1000) part)
  let b ← searchChain exampleX (fun a => ([5, 3] : List ℤ).getD a 0)
    (staticOps exampleX (fun a => ([5, 3] : List ℤ).getD a 0) (fun v w => |v - w|)
      (candAll (fun i => |exampleX i 0 - 5| + |exampleX i 1 - 3|))) (ts.map Prod.snd)
      (Buffer.mk 0 k)
  some (b.indices, b.distances)

example : chainOf [[0, 1, 2], [3, 4, 5, 6]] 3 = some ([1, 6, 4], [1, 1, 2]) := by decide +kernel

/-- **C75**: searching the same tree twice with one buffer finds the same samples twice. -/
theorem C75_same_tree_twice : chainOf [[0, 1, 2, 3, 4, 5, 6], [0, 1, 2, 3, 4, 5, 6]] 4 =
    some ([6, 6, 1, 1], [1, 1, 1, 1]) := by decide +kernel

end Verif.Search
