import Verif.Lemmas.Search
import Verif.Lemmas.Distances
import Verif.Spec.Search
import Verif.Spec.UnionFind
import Verif.Props.KDTree
import Verif.Props.Buffer

/-
Properties C14-C18: searches in a k-d tree.

Coordinates: integers with the Manhattan distance (what `auto_distance` uses on signed integral
data), natural numbers with the unsigned Manhattan distance, and reals with the Euclidean distance
(floating data in exact arithmetic, with the epsilon equality of the construction).
-/

namespace Verif.Search

open Verif.KDTree Verif.Buffer Verif.Sorting Verif.Distances

set_option linter.unusedSectionVars false

/-! ### generic statements -/

section Generic

variable {K : Type} [LinearOrder K] {D : Type} [LinearOrder D]

theorem splitBy_axes {L R : Nat → Nat → Nat → Prop} {nf : Nat} {t : KDTree.Tree K}
    (h : t.SplitBy L R) (ha : t.AxesLt nf) :
    t.SplitBy (fun a i p => a < nf ∧ L a i p) (fun a p i => a < nf ∧ R a p i) := by
  induction t with
  | leaf idx box => trivial
  | node p a box l r ihl ihr =>
    obtain ⟨h1, h2, h3, h4⟩ := h
    obtain ⟨ha1, ha2, ha3⟩ := ha
    exact ⟨fun i hi => ⟨ha1, h1 i hi⟩, fun i hi => ⟨ha1, h2 i hi⟩, ihl h3 ha2, ihr h4 ha3⟩

/-- The gap to a splitting plane never exceeds the distance to a sample behind it. -/
def GapSound (nf : Nat) (x : Nat → Nat → K) (q : Nat → K) (gap : K → K → D) (dist : Nat → D) :
    Prop :=
  ∀ a < nf, ∀ i v, (q a ≤ v ∧ v ≤ x i a ∨ x i a ≤ v ∧ v ≤ q a) → gap v (q a) ≤ dist i

theorem pruneOk_exact {nf : Nat} {x : Nat → Nat → K} {q : Nat → K} {gap : K → K → D}
    {dist : Nat → D} (hg : GapSound nf x q gap dist) {cand : Nat → Option D}
    (hc : ∀ i d, cand i = some d → d = dist i) :
    PruneOk x q gap cand (fun a i p => a < nf ∧ x i a < x p a) (fun a p i => a < nf ∧ x p a ≤ x i a)
      Eq := by
  intro a p i d f hd hs hf
  have := hc i d hd
  subst this
  symm
  rw [max_eq_left_iff]
  refine hf.trans ?_
  rcases hs with ⟨h1, h2, h3⟩ | ⟨h1, h2, h3⟩
  · exact hg a h2 i _ (Or.inl ⟨h1.le, h3⟩)
  · exact hg a h2 i _ (Or.inr ⟨h3.le, h1⟩)

theorem cands_perm {cand : Nat → Option D} {a b : List Nat} (h : a.Perm b) :
    (cands cand a).Perm (cands cand b) := h.filterMap _

theorem cands_all (dist : Nat → D) (idx : List Nat) :
    cands (candAll dist) idx = idx.map (fun i => (i, dist i)) := by
  simp [cands, candAll]

theorem cands_ball (dist : Nat → D) (radius : D) (idx : List Nat) :
    cands (candBall dist radius) idx =
      (idx.filter (fun i => dist i < radius)).map (fun i => (i, dist i)) := by
  induction idx with
  | nil => rfl
  | cons i idx ih =>
    by_cases h : dist i < radius
    · simp [cands, candBall, h] at ih ⊢; exact ih
    · simp [cands, candBall, h] at ih ⊢; exact ih

theorem cands_unvisited (dist : Nat → D) (visited idx : List Nat) :
    cands (candUnvisited visited (candAll dist)) idx =
      (idx.filter (fun i => i ∉ visited)).map (fun i => (i, dist i)) := by
  induction idx with
  | nil => rfl
  | cons i idx ih =>
    by_cases h : i ∈ visited
    · simp [cands, candUnvisited, candAll, h] at ih ⊢; exact ih
    · simp [cands, candUnvisited, candAll, h] at ih ⊢; exact ih

theorem cands_uf (dist : Nat → D) (r : Nat → Nat) (rep : Nat) (idx : List Nat) :
    cands (fun i => if r rep = r i then none else candAll dist i) idx =
      (idx.filter (fun i => r rep ≠ r i)).map (fun i => (i, dist i)) := by
  induction idx with
  | nil => rfl
  | cons i idx ih =>
    by_cases h : r rep = r i
    · simp [cands, candAll, h] at ih ⊢; exact ih
    · simp [cands, candAll, h] at ih ⊢; exact ih

theorem capEff_of_pos {k : Nat} (hk : 1 ≤ k) : capEff k = k := by
  unfold capEff; split <;> omega

/-- Exact search with a stateless buffer in a tree built on data with exact equality. -/
theorem search_exact {x : Nat → Nat → K} {q : Nat → K} {gap : K → K → D} {dist : Nat → D} {nf : Nat}
    (hg : GapSound nf x q gap dist) (cand : Nat → Option D)
    (hc : ∀ i d, cand i = some d → d = dist i)
    (policy : List Nat → Nat → Box K → Nat) (bucketSize maxDepth : Nat)
    (hpol : ∀ idx d box, policy idx d box < nf) (vmax vlowest : K) (idx : List Nat)
    (inf : D) (cap : Nat) (hcap2 : cap < 2 ^ 64)
    (hcap : cap ≠ 0 ∨ (∀ p a, gap (x p a) (q a) < inf) ∨ ∀ i, cand i ≠ none) :
    ∃ idx' t b, make eqExact x policy bucketSize maxDepth nf vmax vlowest idx = some (idx', t) ∧
      search x q (staticOps x q gap cand) t (Buffer.mk inf cap) = some b ∧
      b.indices.length = b.distances.length ∧
      IsKNearest (capEff cap) (b.indices.zip b.distances) (cands cand idx) := by
  obtain ⟨idx', t, e, hp, hi, _, ho, _, ha, _⟩ :=
    make_exact x policy bucketSize maxDepth nf hpol vmax vlowest idx
  obtain ⟨b, kept, es, _, h1, h2, ⟨rest, hr1, hr2⟩, hl, _⟩ :=
    search_result (sim_static x q gap cand) (fun _ => rfl) (pruneOk_exact hg hc) hcap2
      (hcap.imp id (Or.imp GapBelow.of_lt (fun h i _ => h i))) t (splitBy_axes ho ha) (fun _ _ => trivial) (Buffer.mk inf cap) trivial
      rfl
  have hcp : (cands cand t.indices).Perm (cands cand idx) := cands_perm (hi ▸ hp)
  simp only [id] at h1 h2
  refine ⟨idx', t, b, e, es, by rw [h1, h2]; simp, ?_⟩
  rw [h1, h2, zip_map_fst_snd]
  refine ⟨⟨rest, hr1.trans hcp, ?_⟩, by rw [hl, hcp.length_eq]⟩
  intro a ha b hb
  obtain ⟨d', rfl, h⟩ := hr2 a ha b hb
  exact h

/-- An unlimited buffer keeps all candidates. -/
theorem kept_all {kept all : List (Nat × D)} (h : IsKNearest (capEff 0) kept all)
    (hl : all.length < 2 ^ 64) : kept.Perm all := by
  obtain ⟨⟨rest, hp, _⟩, hlen⟩ := h
  have hrest : rest = [] := by
    apply List.length_eq_zero_iff.1
    have h1 := hp.length_eq
    simp only [List.length_append] at h1
    simp only [capEff, sizeMod, if_true] at hlen
    omega
  subst hrest
  simpa using hp

end Generic

/-! ### the three distances -/

theorem row_get {K : Type} {nf : Nat} {v : Nat → K} {a : Nat} (h : a < nf) :
    (row nf v)[a]? = some (v a) := by
  simp [row, h]

theorem gapSound_manhattan {nf : Nat} {x : Nat → Nat → ℤ} {q : Nat → ℤ} {dist : Nat → ℤ}
    (hd : ∀ i, manhattan (row nf (x i)) (row nf q) = some (dist i)) :
    GapSound nf x q (fun v w => |v - w|) dist := by
  intro a ha i v hv
  have h1 := hd i
  rw [manhattan_eq (by simp [row])] at h1
  have h2 := coord_le_sum (fun a b : ℤ => |a - b|) (fun _ _ => abs_nonneg _) _ _ a _ _
    (row_get (v := x i) ha) (row_get (v := q) ha)
  rw [Option.some.inj h1] at h2
  refine le_trans ?_ h2
  dsimp only
  rcases hv with ⟨h3, h4⟩ | ⟨h3, h4⟩
  · rw [abs_of_nonneg (by omega), abs_of_nonneg (by omega)]; omega
  · rw [abs_of_nonpos (by omega), abs_of_nonpos (by omega)]; omega

/-- **C14**, signed integral data. Building a k-d tree with any options and any axis policy and
searching it with a capacity `k >= 1` succeeds and leaves in the buffer `k` nearest samples of the
query for the Manhattan distance. -/
theorem C14_knn_signed (nf : Nat) (x : Nat → Nat → ℤ) (q : Nat → ℤ) (dist : Nat → ℤ)
    (hd : ∀ i, manhattan (row nf (x i)) (row nf q) = some (dist i))
    (policy : List Nat → Nat → Box ℤ → Nat) (bucketSize maxDepth : Nat)
    (hpol : ∀ idx d box, policy idx d box < nf) (vmax vlowest inf : ℤ) (idx : List Nat)
    (k : Nat) (hk : 1 ≤ k) (hk2 : k < 2 ^ 64) :
    ∃ idx' t b, make eqExact x policy bucketSize maxDepth nf vmax vlowest idx = some (idx', t) ∧
      search x q (staticOps x q (fun v w => |v - w|) (candAll dist)) t (Buffer.mk inf k) = some b ∧
      b.indices.length = b.distances.length ∧
      IsKNearest k (b.indices.zip b.distances) (idx.map (fun i => (i, dist i))) := by
  have := search_exact (gapSound_manhattan hd) (candAll dist)
    (fun i d h => by simp [candAll] at h; exact h.symm) policy bucketSize maxDepth hpol vmax vlowest
    idx inf k hk2 (Or.inl (by omega))
  rwa [cands_all, capEff_of_pos hk] at this

/-- **C14**, signed integral data, default (unlimited) capacity: every sample is returned. -/
theorem C14_unlimited_signed (nf : Nat) (x : Nat → Nat → ℤ) (q : Nat → ℤ) (dist : Nat → ℤ)
    (hd : ∀ i, manhattan (row nf (x i)) (row nf q) = some (dist i))
    (policy : List Nat → Nat → Box ℤ → Nat) (bucketSize maxDepth : Nat)
    (hpol : ∀ idx d box, policy idx d box < nf) (vmax vlowest inf : ℤ) (idx : List Nat)
    (hn : idx.length < 2 ^ 64) :
    ∃ idx' t b, make eqExact x policy bucketSize maxDepth nf vmax vlowest idx = some (idx', t) ∧
      search x q (staticOps x q (fun v w => |v - w|) (candAll dist)) t (Buffer.mk inf 0) = some b ∧
      (b.indices.zip b.distances).Perm (idx.map (fun i => (i, dist i))) := by
  obtain ⟨idx', t, b, h1, h2, _, h3⟩ := search_exact (gapSound_manhattan hd) (candAll dist)
    (fun i d h => by simp [candAll] at h; exact h.symm) policy bucketSize maxDepth hpol vmax vlowest
    idx inf 0 (by omega) (Or.inr (Or.inr (fun i => by simp [candAll])))
  rw [cands_all] at h3
  exact ⟨idx', t, b, h1, h2, kept_all h3 (by simpa using hn)⟩

/-- **C16**, signed integral data: `k` nearest among the samples that are not in the visited set. -/
theorem C16_memory_signed (nf : Nat) (x : Nat → Nat → ℤ) (q : Nat → ℤ) (dist : Nat → ℤ)
    (hd : ∀ i, manhattan (row nf (x i)) (row nf q) = some (dist i))
    (policy : List Nat → Nat → Box ℤ → Nat) (bucketSize maxDepth : Nat)
    (hpol : ∀ idx d box, policy idx d box < nf) (vmax vlowest inf : ℤ) (idx visited : List Nat)
    (k : Nat) (hk : 1 ≤ k) (hk2 : k < 2 ^ 64) :
    ∃ idx' t b, make eqExact x policy bucketSize maxDepth nf vmax vlowest idx = some (idx', t) ∧
      search x q (staticOps x q (fun v w => |v - w|) (candUnvisited visited (candAll dist))) t
        (Buffer.mk inf k) = some b ∧
      b.indices.length = b.distances.length ∧
      IsKNearest k (b.indices.zip b.distances)
        ((idx.filter (fun i => i ∉ visited)).map (fun i => (i, dist i))) := by
  have := search_exact (gapSound_manhattan hd) (candUnvisited visited (candAll dist))
    (fun i d h => by
      simp only [candUnvisited, candAll] at h
      split at h
      · simp at h
      · simpa using h.symm) policy bucketSize maxDepth hpol vmax vlowest
    idx inf k hk2 (Or.inl (by omega))
  rwa [cands_unvisited, capEff_of_pos hk] at this

/-- Radius search with unlimited capacity in any tree at all: exactly the samples strictly inside
the radius, provided the initial furthest distance `inf` is above every coordinate difference. -/
theorem radius_any_tree {K : Type} [LinearOrder K] {D : Type} [LinearOrder D]
    (x : Nat → Nat → K) (q : Nat → K) (gap : K → K → D) (dist : Nat → D)
    (radius inf : D) (hinf : GapBelow x q gap inf) (t : KDTree.Tree K)
    (hn : t.indices.length < 2 ^ 64) :
    ∃ b, search x q (staticOps x q gap (candBall dist radius)) t (Buffer.mk inf 0) = some b ∧
      b.indices.length = b.distances.length ∧
      (b.indices.zip b.distances).Perm
        ((t.indices.filter (fun i => dist i < radius)).map (fun i => (i, dist i))) := by
  have htriv : ∀ t : KDTree.Tree K, t.SplitBy (fun _ _ _ => True) (fun _ _ _ => True) := by
    intro t
    induction t with
    | leaf idx box => trivial
    | node p a box l r ihl ihr => exact ⟨fun _ _ => trivial, fun _ _ => trivial, ihl, ihr⟩
  obtain ⟨b, kept, es, _, h1, h2, ⟨rest, hr1, _⟩, hl, _⟩ :=
    search_result (sim_static x q gap (candBall dist radius)) (near := fun _ _ => True)
      (fun _ => trivial) (fun _ _ _ _ _ _ _ _ => trivial) (inf := inf) (cap := 0) (by simp [sizeMod])
      (Or.inr (Or.inl hinf)) t (htriv t) (fun _ _ => trivial) (Buffer.mk inf 0) trivial rfl
  simp only [id] at h1 h2
  refine ⟨b, es, by rw [h1, h2]; simp, ?_⟩
  rw [h1, h2, zip_map_fst_snd]
  rw [cands_ball] at hr1 hl
  have hlen := List.length_filter_le (fun i => decide (dist i < radius)) t.indices
  have hrest : rest = [] := by
    apply List.length_eq_zero_iff.1
    have h3 := hr1.length_eq
    simp only [List.length_append, List.length_map] at h3 hl
    simp only [capEff, sizeMod, if_true] at hl
    omega
  subst hrest
  simpa using hr1

/-- **C15**, floating data (exact real arithmetic; `inf` stands for the floating infinity, which is
above every coordinate difference): building the tree with any options and searching with a ball
bound and unlimited capacity returns exactly the samples at distance strictly less than the radius,
each as often as it was supplied. No error is introduced by the epsilon equality. -/
theorem C15_radius_float (eps : ℝ) (he : 0 ≤ eps) (nf : Nat) (x : Nat → Nat → ℝ) (q : Nat → ℝ)
    (dist : Nat → ℝ) (radius inf : ℝ) (hinf : ∀ p a, |x p a - q a| < inf)
    (policy : List Nat → Nat → Box ℝ → Nat) (bucketSize maxDepth : Nat)
    (hpol : ∀ idx d box, policy idx d box < nf) (vmax vlowest : ℝ) (idx : List Nat)
    (hn : idx.length < 2 ^ 64) :
    ∃ idx' t b, make (eqEps eps) x policy bucketSize maxDepth nf vmax vlowest idx = some (idx', t) ∧
      search x q (staticOps x q (fun v w => |v - w|) (candBall dist radius)) t (Buffer.mk inf 0) =
        some b ∧
      b.indices.length = b.distances.length ∧
      (b.indices.zip b.distances).Perm
        ((idx.filter (fun i => dist i < radius)).map (fun i => (i, dist i))) := by
  obtain ⟨idx', t, e, hp, hi, _⟩ :=
    make_float eps he x policy bucketSize maxDepth nf hpol vmax vlowest idx
  have hpi : t.indices.Perm idx := hi ▸ hp
  obtain ⟨b, h1, hl, h2⟩ := radius_any_tree x q (fun v w => |v - w|) dist radius inf
    (GapBelow.of_lt hinf) t
    (by rw [hpi.length_eq]; exact hn)
  exact ⟨idx', t, b, e, h1, hl, h2.trans ((hpi.filter _).map _)⟩

/-- Offering a list of samples to a stateless buffer is updating it with the candidates. -/
theorem foldlM_offer {D : Type} [LinearOrder D] (cand : Nat → Option D) :
    ∀ (L : List Nat) (b : Buf D), L.foldlM (Buf.offer cand) b = b.updates (cands cand L) := by
  intro L
  induction L with
  | nil => intro b; rfl
  | cons i L ih =>
    intro b
    simp only [List.foldlM_cons, Buf.offer]
    cases hc : cand i with
    | none =>
      have : cands cand (i :: L) = cands cand L := by simp [cands, hc]
      rw [this, ← ih]; rfl
    | some d =>
      have : cands cand (i :: L) = (i, d) :: cands cand L := by simp [cands, hc]
      rw [this]
      simp only [Buf.updates, List.foldlM_cons]
      congr 1
      funext b'
      exact ih b'

/-- **C15**, part that holds on any data, including integral data where `inf` is `0`: the search
succeeds and every sample returned is a sample of the tree strictly inside the radius, returned at
most as often as it was supplied and with its true distance.  What is missing: completeness, which is
false on integral data (`C15_signed_counterexample`). -/
theorem C15_radius_sound_partial {K : Type} [LinearOrder K] {D : Type} [LinearOrder D]
    (x : Nat → Nat → K) (q : Nat → K) (gap : K → K → D) (dist : Nat → D) (radius inf : D)
    (t : KDTree.Tree K) (hn : t.indices.length < 2 ^ 64) :
    ∃ b, search x q (staticOps x q gap (candBall dist radius)) t (Buffer.mk inf 0) = some b ∧
      (b.indices.zip b.distances).Subperm
        ((t.indices.filter (fun i => dist i < radius)).map (fun i => (i, dist i))) := by
  obtain ⟨L, hL, e⟩ := walk_offers x q (staticOps x q gap (candBall dist radius)) t (Buffer.mk inf 0)
  have e2 := foldlM_offer (candBall dist radius) L (Buffer.mk inf 0)
  have hlen : (cands (candBall dist radius) L).length < 2 ^ 64 := by
    have h1 := hL.length_le
    have h2 : (cands (candBall dist radius) L).length ≤ L.length := List.length_filterMap_le _ _
    omega
  obtain ⟨b, hb, _, hp⟩ := C12_default_capacity_keeps_all inf _ hlen
  refine ⟨b, ?_, ?_⟩
  · rw [search_eq_walk, e, ← hb, ← e2]; rfl
  · rw [← cands_ball]
    refine hp.subperm.trans ?_
    obtain ⟨L', hL', hs⟩ := hL
    exact ⟨cands _ L', cands_perm hL', hs.filterMap _⟩

/-! ### union-find buffer -/

/-- **C17.** Signed integral data and any history `ops` of merges on `n` samples: the search with a
`WithUnionFind` buffer of capacity `k >= 1` leaves `k` nearest samples among those not connected
with `rep`; in particular with `k = 1` the closest such sample. The union-find structure after the
search still describes the same components. -/
theorem C17_other_component (n : Nat) (ops : List UF.Op) (hops : ∀ op ∈ ops, op.Valid n)
    (nf : Nat) (x : Nat → Nat → ℤ) (q : Nat → ℤ) (dist : Nat → ℤ)
    (hd : ∀ i, manhattan (row nf (x i)) (row nf q) = some (dist i))
    (policy : List Nat → Nat → Box ℤ → Nat) (bucketSize maxDepth : Nat)
    (hpol : ∀ idx d box, policy idx d box < nf) (vmax vlowest inf : ℤ) (idx : List Nat)
    (hidx : ∀ i ∈ idx, i < n) (rep : Nat) (hrep : rep < n)
    (k : Nat) (hk : 1 ≤ k) (hk2 : k < 2 ^ 64) :
    ∃ s idx' t s' b, UF.run (UF.init n) ops = some s ∧
      make eqExact x policy bucketSize maxDepth nf vmax vlowest idx = some (idx', t) ∧
      search x q (ufOps x q (fun v w => |v - w|) (candAll dist) rep) t (s, Buffer.mk inf k) =
        some (s', b) ∧
      b.indices.length = b.distances.length ∧
      (∃ other : List Nat, other.Sublist idx ∧
        (∀ i, i ∈ other ↔ i ∈ idx ∧ ¬ UF.Together ops rep i) ∧
        IsKNearest k (b.indices.zip b.distances) (other.map (fun i => (i, dist i)))) ∧
      ∀ i < n, ∃ u u' ρ, UF.find s i = some (u, ρ) ∧ UF.find s' i = some (u', ρ) := by
  obtain ⟨s, r, es, hs, htog⟩ := UF.run_init_spec n ops hops
  obtain ⟨idx', t, e, hp, hi, _, ho, _, ha, _⟩ :=
    make_exact x policy bucketSize maxDepth nf hpol vmax vlowest idx
  have hpr : PruneOk x q (fun v w => |v - w|)
      (fun i => if r rep = r i then none else candAll dist i)
      (fun a i p => a < nf ∧ x i a < x p a) (fun a p i => a < nf ∧ x p a ≤ x i a) Eq := by
    refine pruneOk_exact (gapSound_manhattan hd) ?_
    intro i d h
    split at h
    · simp at h
    · simpa [candAll] using h.symm
  obtain ⟨⟨s', b⟩, kept, es', hg', h1, h2, ⟨rest, hr1, hr2⟩, hl, _⟩ :=
    search_result (sim_uf x q (fun v w => |v - w|) (candAll dist) n rep r hrep) (fun _ => rfl) hpr
      hk2 (Or.inl (by omega)) t (splitBy_axes ho ha)
      (fun i hi' => hidx i (hp.mem_iff.1 (hi ▸ hi'))) (s, Buffer.mk inf k) hs rfl
  dsimp only at h1 h2
  have hcp := cands_perm (cand := fun i => if r rep = r i then none else candAll dist i)
    (show t.indices.Perm idx from hi ▸ hp)
  refine ⟨s, idx', t, s', b, es, e, es', by rw [h1, h2]; simp,
    ⟨idx.filter (fun i => r rep ≠ r i), List.filter_sublist, ?_, ?_⟩, ?_⟩
  · intro i
    simp [htog]
  · rw [cands_uf dist r rep idx] at hcp
    rw [h1, h2, zip_map_fst_snd]
    refine ⟨⟨rest, hr1.trans hcp, ?_⟩, by rw [hl, hcp.length_eq, capEff_of_pos hk]⟩
    intro a ha b hb
    obtain ⟨d', rfl, h⟩ := hr2 a ha b hb
    exact h
  · intro i hi'
    obtain ⟨u, e1, _⟩ := UF.find_spec hs hi'
    obtain ⟨u', e2, _⟩ := UF.find_spec hg' hi'
    exact ⟨u, u', r i, e1, e2⟩

/-! ### termination and single visits -/

/-- **C18.** For every tree, query and buffer implementation the traversal terminates and amounts to
offering to the buffer a selection of the samples of the tree in some order, each sample at most
once (`Subperm`: with at most the multiplicity it has in the tree). -/
theorem C18_each_sample_once {K : Type} [LinearOrder K] {B : Type} (x : Nat → Nat → K) (q : Nat → K)
    (ops : BufferOps B) (t : KDTree.Tree K) (b : B) :
    ∃ L : List Nat, L.Subperm t.indices ∧ search x q ops t b = L.foldlM ops.offer b := by
  rw [search_eq_walk]
  exact walk_offers x q ops t b

/-! ### floating data -/

theorem pruneOk_float {eps : ℝ} (he : 0 ≤ eps) {nf : Nat} {x : Nat → Nat → ℝ} {q : Nat → ℝ}
    {dist : Nat → ℝ} (hd : ∀ i, euclidean (row nf (x i)) (row nf q) = some (dist i))
    {cand : Nat → Option ℝ} (hc : ∀ i d, cand i = some d → d = dist i) :
    PruneOk x q (fun v w => |v - w|) cand
      (fun a i p => a < nf ∧ x i a ≤ x p a + 2 * eps)
      (fun a p i => a < nf ∧ x p a ≤ x i a + 2 * eps) (fun d d' => d' ≤ d + 2 * eps) := by
  intro a p i d f hcd hs hf
  have := hc i d hcd
  subst this
  have hco : ∀ a < nf, |x i a - q a| ≤ dist i := by
    intro a ha
    have h1 := hd i
    rw [euclidean_eq (by simp [row])] at h1
    have h2 := abs_le_euclidean (row_get (v := x i) ha) (row_get (v := q) ha)
    rwa [Option.some.inj h1] at h2
  refine max_le (by linarith) (hf.trans ?_)
  dsimp only
  rcases hs with ⟨h1, h2, h3⟩ | ⟨h1, h2, h3⟩
  · have h4 := hco a h2
    rw [abs_of_pos (by linarith)]
    linarith [le_abs_self (x i a - q a)]
  · have h4 := hco a h2
    rw [abs_of_nonpos (by linarith)]
    linarith [neg_abs_le (x i a - q a)]

theorem search_float (eps : ℝ) (he : 0 ≤ eps) (nf : Nat) (x : Nat → Nat → ℝ) (q : Nat → ℝ)
    (dist : Nat → ℝ) (hd : ∀ i, euclidean (row nf (x i)) (row nf q) = some (dist i))
    (cand : Nat → Option ℝ) (hc : ∀ i d, cand i = some d → d = dist i)
    (policy : List Nat → Nat → Box ℝ → Nat) (bucketSize maxDepth : Nat)
    (hpol : ∀ idx d box, policy idx d box < nf) (vmax vlowest inf : ℝ) (idx : List Nat)
    (k : Nat) (hk : 1 ≤ k) (hk2 : k < 2 ^ 64) :
    ∃ idx' t b, make (eqEps eps) x policy bucketSize maxDepth nf vmax vlowest idx = some (idx', t) ∧
      search x q (staticOps x q (fun v w => |v - w|) cand) t (Buffer.mk inf k) = some b ∧
      b.indices.length = b.distances.length ∧
      IsKNearestUpTo (2 * eps) k (b.indices.zip b.distances) (cands cand idx) := by
  obtain ⟨idx', t, e, hp, hi, _, ho, _, ha, _⟩ :=
    make_float eps he x policy bucketSize maxDepth nf hpol vmax vlowest idx
  obtain ⟨b, kept, es, _, h1, h2, ⟨rest, hr1, hr2⟩, hl, _⟩ :=
    search_result (sim_static x q _ cand) (fun d => by linarith) (pruneOk_float he hd hc) hk2
      (Or.inl (by omega)) t (splitBy_axes ho ha) (fun _ _ => trivial) (Buffer.mk inf k) trivial
      rfl
  have hcp := cands_perm (cand := cand) (show t.indices.Perm idx from hi ▸ hp)
  simp only [id] at h1 h2
  refine ⟨idx', t, b, e, es, by rw [h1, h2]; simp, ?_⟩
  rw [h1, h2, zip_map_fst_snd]
  refine ⟨⟨rest, hr1.trans hcp, ?_⟩, by rw [hl, hcp.length_eq, capEff_of_pos hk]⟩
  intro a ha b hb
  obtain ⟨d', h, h'⟩ := hr2 a ha b hb
  exact h'.trans h

/-- **C14** on floating data (exact real arithmetic, epsilon equality in the construction): the
returned samples are `k` nearest up to `2 * eps`. -/
theorem C14_knn_float (eps : ℝ) (he : 0 ≤ eps) (nf : Nat) (x : Nat → Nat → ℝ) (q : Nat → ℝ)
    (dist : Nat → ℝ) (hd : ∀ i, euclidean (row nf (x i)) (row nf q) = some (dist i))
    (policy : List Nat → Nat → Box ℝ → Nat) (bucketSize maxDepth : Nat)
    (hpol : ∀ idx d box, policy idx d box < nf) (vmax vlowest inf : ℝ) (idx : List Nat)
    (k : Nat) (hk : 1 ≤ k) (hk2 : k < 2 ^ 64) :
    ∃ idx' t b, make (eqEps eps) x policy bucketSize maxDepth nf vmax vlowest idx = some (idx', t) ∧
      search x q (staticOps x q (fun v w => |v - w|) (candAll dist)) t (Buffer.mk inf k) = some b ∧
      b.indices.length = b.distances.length ∧
      IsKNearestUpTo (2 * eps) k (b.indices.zip b.distances) (idx.map (fun i => (i, dist i))) := by
  have := search_float eps he nf x q dist hd (candAll dist)
    (fun i d h => by simp [candAll] at h; exact h.symm) policy bucketSize maxDepth hpol vmax vlowest
    inf idx k hk hk2
  rwa [cands_all] at this

/-- **C16** on floating data, up to `2 * eps`. -/
theorem C16_memory_float (eps : ℝ) (he : 0 ≤ eps) (nf : Nat) (x : Nat → Nat → ℝ) (q : Nat → ℝ)
    (dist : Nat → ℝ) (hd : ∀ i, euclidean (row nf (x i)) (row nf q) = some (dist i))
    (policy : List Nat → Nat → Box ℝ → Nat) (bucketSize maxDepth : Nat)
    (hpol : ∀ idx d box, policy idx d box < nf) (vmax vlowest inf : ℝ) (idx visited : List Nat)
    (k : Nat) (hk : 1 ≤ k) (hk2 : k < 2 ^ 64) :
    ∃ idx' t b, make (eqEps eps) x policy bucketSize maxDepth nf vmax vlowest idx = some (idx', t) ∧
      search x q (staticOps x q (fun v w => |v - w|) (candUnvisited visited (candAll dist))) t
        (Buffer.mk inf k) = some b ∧
      b.indices.length = b.distances.length ∧
      IsKNearestUpTo (2 * eps) k (b.indices.zip b.distances)
        ((idx.filter (fun i => i ∉ visited)).map (fun i => (i, dist i))) := by
  have := search_float eps he nf x q dist hd (candUnvisited visited (candAll dist))
    (fun i d h => by
      simp only [candUnvisited, candAll] at h
      split at h
      · simp at h
      · simpa using h.symm) policy bucketSize maxDepth hpol vmax vlowest
    inf idx k hk hk2
  rwa [cands_unvisited] at this

/-- **C17** on floating data, up to `2 * eps`. -/
theorem C17_other_component_float (n : Nat) (ops : List UF.Op) (hops : ∀ op ∈ ops, op.Valid n)
    (eps : ℝ) (he : 0 ≤ eps) (nf : Nat) (x : Nat → Nat → ℝ) (q : Nat → ℝ)
    (dist : Nat → ℝ) (hd : ∀ i, euclidean (row nf (x i)) (row nf q) = some (dist i))
    (policy : List Nat → Nat → Box ℝ → Nat) (bucketSize maxDepth : Nat)
    (hpol : ∀ idx d box, policy idx d box < nf) (vmax vlowest inf : ℝ) (idx : List Nat)
    (hidx : ∀ i ∈ idx, i < n) (rep : Nat) (hrep : rep < n)
    (k : Nat) (hk : 1 ≤ k) (hk2 : k < 2 ^ 64) :
    ∃ s idx' t s' b, UF.run (UF.init n) ops = some s ∧
      make (eqEps eps) x policy bucketSize maxDepth nf vmax vlowest idx = some (idx', t) ∧
      search x q (ufOps x q (fun v w => |v - w|) (candAll dist) rep) t (s, Buffer.mk inf k) =
        some (s', b) ∧
      b.indices.length = b.distances.length ∧
      (∃ other : List Nat, other.Sublist idx ∧
        (∀ i, i ∈ other ↔ i ∈ idx ∧ ¬ UF.Together ops rep i) ∧
        IsKNearestUpTo (2 * eps) k (b.indices.zip b.distances)
          (other.map (fun i => (i, dist i)))) ∧
      ∀ i < n, ∃ u u' ρ, UF.find s i = some (u, ρ) ∧ UF.find s' i = some (u', ρ) := by
  obtain ⟨s, r, es, hs, htog⟩ := UF.run_init_spec n ops hops
  obtain ⟨idx', t, e, hp, hi, _, ho, _, ha, _⟩ :=
    make_float eps he x policy bucketSize maxDepth nf hpol vmax vlowest idx
  obtain ⟨⟨s', b⟩, kept, es', hg', h1, h2, ⟨rest, hr1, hr2⟩, hl, _⟩ :=
    search_result (sim_uf x q (fun v w => |v - w|) (candAll dist) n rep r hrep)
      (fun d => by linarith)
      (pruneOk_float he hd (cand := fun i => if r rep = r i then none else candAll dist i) (by
        intro i d h
        split at h
        · simp at h
        · simpa [candAll] using h.symm))
      hk2 (Or.inl (by omega)) t (splitBy_axes ho ha)
      (fun i hi' => hidx i (hp.mem_iff.1 (hi ▸ hi'))) (s, Buffer.mk inf k) hs rfl
  dsimp only at h1 h2
  have hcp := cands_perm (cand := fun i => if r rep = r i then none else candAll dist i)
    (show t.indices.Perm idx from hi ▸ hp)
  refine ⟨s, idx', t, s', b, es, e, es', by rw [h1, h2]; simp,
    ⟨idx.filter (fun i => r rep ≠ r i), List.filter_sublist, ?_, ?_⟩, ?_⟩
  · intro i
    simp [htog]
  · rw [cands_uf dist r rep idx] at hcp
    rw [h1, h2, zip_map_fst_snd]
    refine ⟨⟨rest, hr1.trans hcp, ?_⟩, by rw [hl, hcp.length_eq, capEff_of_pos hk]⟩
    intro a ha b hb
    obtain ⟨d', h, h'⟩ := hr2 a ha b hb
    exact h'.trans h
  · intro i hi'
    obtain ⟨u, e1, _⟩ := UF.find_spec hs hi'
    obtain ⟨u', e2, _⟩ := UF.find_spec hg' hi'
    exact ⟨u, u', r i, e1, e2⟩

/-! ### counterexamples -/

/-- Three samples of the plane. -/
def planeX : Nat → Nat → ℤ := fun i f =>
  (([[-100, 0], [1, 100], [2, 0]] : List (List ℤ)).getD i []).getD f 0

/-- **C15 fails on signed integral data**: `infinity<int>()` is `0`, an empty unlimited buffer has
remaining capacity `0` and furthest distance `0`, so the sibling subtree is pruned although it holds
a sample within the radius.  Query (0, 0), radius 5, samples (-100, 0), (1, 100), (2, 0), bucket
size 1: sample 2 is at distance 2 but nothing is returned. -/
theorem C15_signed_counterexample :
    (make eqExact planeX (fun _ d _ => d % 2) 1 10 2 1000 (-1000) [0, 1, 2]).bind (fun r =>
      (search planeX (fun _ => 0) (staticOps planeX (fun _ => 0) (fun v w => |v - w|)
        (candBall (fun i => |planeX i 0| + |planeX i 1|) 5)) r.2 (Buffer.mk 0 0)).map
          (fun b => b.indices)) = some [] ∧
    manhattan (row 2 (planeX 2)) (row 2 (fun _ => 0)) = some 2 := by decide +kernel

/-- **C14**, data of unsigned types narrower than `int` (`uint8_t`, `uint16_t`), whose differences
are computed exactly: the same statement with the unsigned Manhattan distance.  Distances that do not
fit in the data type are out of the model; see C87. -/
theorem C14_knn_unsigned_narrow (nf : Nat) (x : Nat → Nat → Nat) (q : Nat → Nat) (dist : Nat → Nat)
    (hd : ∀ i, unsignedManhattan (row nf (x i)) (row nf q) = some (dist i))
    (policy : List Nat → Nat → Box Nat → Nat) (bucketSize maxDepth : Nat)
    (hpol : ∀ idx d box, policy idx d box < nf) (vmax vlowest inf : Nat) (idx : List Nat)
    (k : Nat) (hk : 1 ≤ k) (hk2 : k < 2 ^ 64) :
    ∃ idx' t b, make eqExact x policy bucketSize maxDepth nf vmax vlowest idx = some (idx', t) ∧
      search x q (staticOps x q (fun v w => ((v : ℤ) - w).natAbs) (candAll dist)) t
        (Buffer.mk inf k) = some b ∧
      b.indices.length = b.distances.length ∧
      IsKNearest k (b.indices.zip b.distances) (idx.map (fun i => (i, dist i))) := by
  have hg : GapSound nf x q (fun v w => ((v : ℤ) - w).natAbs) dist := by
    intro a ha i v hv
    have h1 := hd i
    rw [unsignedManhattan_eq (by simp [row])] at h1
    have h2 := coord_le_sum (fun a b : Nat => if a > b then a - b else b - a)
      (fun _ _ => Nat.zero_le _) _ _ a _ _ (row_get (v := x i) ha) (row_get (v := q) ha)
    rw [Option.some.inj h1] at h2
    refine le_trans ?_ h2
    dsimp only
    split <;> omega
  have := search_exact hg (candAll dist)
    (fun i d h => by simp [candAll] at h; exact h.symm) policy bucketSize maxDepth hpol vmax vlowest
    idx inf k hk2 (Or.inl (by omega))
  rwa [cands_all, capEff_of_pos hk] at this

/-- `common::abs(pivot_split_value - query_split_value)` on a 32-bit unsigned type: the difference
wraps and `abs` is the identity (KDNodeView.hpp:235-238, Utils.hpp:399-402). -/
def gapU32 (v w : Nat) : Nat := (v + 2 ^ 32 - w) % 2 ^ 32

/-- **C14 fails on 32-bit (and wider) unsigned data.** Samples 0, 11, 90, query 12, `k = 2`, bucket
size 1: the pivot 11 is below the query, the difference wraps around and the left subtree is pruned,
so samples 1 and 2 (distances 1 and 78) are returned although sample 0 is at distance 12. -/
theorem C14_unsigned_wide_counterexample :
    (make eqExact (fun i _ => ([0, 11, 90] : List Nat).getD i 0) (fun _ _ _ => 0) 1 10 1 1000 0
        [0, 1, 2]).bind (fun r =>
      (search (fun i _ => ([0, 11, 90] : List Nat).getD i 0) (fun _ => 12)
        (staticOps (fun i _ => ([0, 11, 90] : List Nat).getD i 0) (fun _ => 12) gapU32
          (candAll (fun i => ([12, 1, 78] : List Nat).getD i 0))) r.2 (Buffer.mk 0 2)).map
        (fun b => (b.indices, b.distances))) = some ([1, 2], [1, 78]) := by decide +kernel

/-! ### concrete cases -/

/-- The hypotheses of the theorems are met by the seven-sample example tree: the three nearest
samples of (5, 3) are 1, 6 and 4 at Manhattan distances 1, 1 and 2. -/
example : exampleTree.bind (fun r =>
    (search exampleX (fun a => ([5, 3] : List ℤ).getD a 0)
      (staticOps exampleX (fun a => ([5, 3] : List ℤ).getD a 0) (fun v w => |v - w|)
        (candAll (fun i => |exampleX i 0 - 5| + |exampleX i 1 - 3|))) r.2 (Buffer.mk 0 3)).map
      (fun b => (b.indices, b.distances))) = some ([6, 4, 1], [1, 2, 1]) := by decide +kernel

/-- The distance hypothesis is the model's Manhattan distance. -/
example : ∀ i, manhattan (row 2 (exampleX i)) (row 2 (fun a => ([5, 3] : List ℤ).getD a 0)) =
    some (|exampleX i 0 - 5| + |exampleX i 1 - 3|) := by
  intro i
  simp [manhattan, row, transformReduce, List.range_succ]

/-- Same search ignoring sample 6. -/
example : exampleTree.bind (fun r =>
    (search exampleX (fun a => ([5, 3] : List ℤ).getD a 0)
      (staticOps exampleX (fun a => ([5, 3] : List ℤ).getD a 0) (fun v w => |v - w|)
        (candUnvisited [6] (candAll (fun i => |exampleX i 0 - 5| + |exampleX i 1 - 3|)))) r.2
        (Buffer.mk 0 1)).map (fun b => (b.indices, b.distances))) = some ([1], [1]) := by
  decide +kernel

/-- Nearest sample outside the component {1, 4, 6}. -/
example : (do
    let r ← exampleTree
    let s ← UF.run (UF.init 7) [.merge 1 4, .merge 4 6]
    let res ← search exampleX (exampleX 6)
      (ufOps exampleX (exampleX 6) (fun v w => |v - w|)
        (candAll (fun i => |exampleX i 0 - 5| + |exampleX i 1 - 2|)) 6) r.2 (s, Buffer.mk 0 1)
    some (res.2.indices, res.2.distances)) = some ([5], [2]) := by decide +kernel

end Verif.Search
