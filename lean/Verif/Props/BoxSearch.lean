import Verif.Model.BoxSearch
import Verif.Props.Search
import Verif.Props.Bounds

/-
Property C86: searches bounded by an axis-aligned box or by a ball, with and without a capacity.
-/

namespace Verif.BoxSearch

open Verif.KDTree Verif.Buffer Verif.Sorting Verif.Distances Verif.Bounds Verif.Search

set_option linter.unusedSectionVars false

section Generic

variable {K : Type} [LinearOrder K] {D : Type} [LinearOrder D]

/-- The candidates of a buffer that only accepts the samples with property `P`. -/
def candIf (P : Nat → Prop) [DecidablePred P] (dist : Nat → D) : Nat → Option D :=
  fun i => if P i then some (dist i) else none

theorem candIf_dist {P : Nat → Prop} [DecidablePred P] {dist : Nat → D} :
    ∀ i d, candIf P dist i = some d → d = dist i := by
  intro i d h
  unfold candIf at h
  split at h
  · exact (Option.some.inj h).symm
  · simp at h

theorem cands_if (P : Nat → Prop) [DecidablePred P] (dist : Nat → D) (idx : List Nat) :
    cands (candIf P dist) idx = (idx.filter (fun i => P i)).map (fun i => (i, dist i)) := by
  induction idx with
  | nil => rfl
  | cons i idx ih =>
    by_cases h : P i
    · simp [cands, candIf, h] at ih ⊢; exact ih
    · simp [cands, candIf, h] at ih ⊢; exact ih

/-- Search with unlimited capacity in any tree at all: exactly the accepted samples, provided the
initial furthest distance is above every coordinate difference. -/
theorem filter_any_tree (x : Nat → Nat → K) (q : Nat → K) (gap : K → K → D) (dist : Nat → D)
    (P : Nat → Prop) [DecidablePred P] (inf : D) (hinf : ∀ p a, gap (x p a) (q a) < inf)
    (t : KDTree.Tree K) (hn : t.indices.length < 2 ^ 64) :
    ∃ b, search x q (staticOps x q gap (candIf P dist)) t (Buffer.mk inf 0) = some b ∧
      b.indices.length = b.distances.length ∧
      (b.indices.zip b.distances).Perm
        ((t.indices.filter (fun i => P i)).map (fun i => (i, dist i))) := by
  have htriv : ∀ t : KDTree.Tree K, t.SplitBy (fun _ _ _ => True) (fun _ _ _ => True) := by
    intro t
    induction t with
    | leaf idx box => trivial
    | node p a box l r ihl ihr => exact ⟨fun _ _ => trivial, fun _ _ => trivial, ihl, ihr⟩
  obtain ⟨b, kept, es, _, h1, h2, ⟨rest, hr1, _⟩, hl, _⟩ :=
    search_result (sim_static x q gap (candIf P dist)) (near := fun _ _ => True)
      (fun _ => trivial) (fun _ _ _ _ _ _ _ _ => trivial) (inf := inf) (cap := 0) (by simp [sizeMod])
      (Or.inr (Or.inl (GapBelow.of_lt hinf))) t (htriv t) (fun _ _ => trivial) (Buffer.mk inf 0) trivial rfl
  simp only [id] at h1 h2
  refine ⟨b, es, by rw [h1, h2]; simp, ?_⟩
  rw [h1, h2, zip_map_fst_snd]
  rw [cands_if] at hr1 hl
  have hlen := List.length_filter_le (fun i => decide (P i)) t.indices
  have hrest : rest = [] := by
    apply List.length_eq_zero_iff.1
    have h3 := hr1.length_eq
    simp only [List.length_append, List.length_map] at h3 hl
    simp only [capEff, sizeMod, if_true] at hl
    omega
  subst hrest
  simpa using hr1

/-- A selection at least as large as the number of candidates is all of them. -/
theorem kept_all_of_le {k : Nat} {kept all : List (Nat × D)} (h : IsKNearest k kept all)
    (hl : all.length ≤ k) : kept.Perm all := by
  obtain ⟨⟨rest, hp, _⟩, hlen⟩ := h
  have hrest : rest = [] := by
    apply List.length_eq_zero_iff.1
    have h1 := hp.length_eq
    simp only [List.length_append] at h1
    omega
  subst hrest
  simpa using hp

theorem features_eq_row (nf : Nat) (x : Nat → Nat → K) (i : Nat) :
    features nf x i = row nf (x i) := rfl

open Classical in
/-- The operations of a box search are those of a buffer that accepts the samples of the box. -/
theorem boxOps_eq [Zero K] {distance : List K → List K → Option D} {gap : K → K → D} {nf : Nat}
    {x : Nat → Nat → K} {box : List (Seg K)} {centre : List K} {dist : Nat → D}
    (hl : box.length = nf) (hd : ∀ i, distance (row nf (x i)) centre = some (dist i)) :
    boxOps distance gap nf x box centre =
      staticOps x (query centre) gap (candIf (fun i => InBox box (row nf (x i))) dist) := by
  unfold boxOps staticOps
  congr 1
  funext b i
  obtain ⟨r, e, hr⟩ := C67_box_membership box (row nf (x i)) (by simp [row, hl])
  simp only [boxOffer, features_eq_row, e, hd, Buf.offer, candIf, Option.bind_eq_bind,
    Option.bind_some]
  by_cases hb : InBox box (row nf (x i))
  · simp [hb, hr.2 hb]
  · have : r = false := by
      cases r with
      | false => rfl
      | true => exact absurd (hr.1 rfl) hb
    simp [hb, this]

theorem row_query [Zero K] {nf : Nat} {centre : List K} (h : centre.length = nf) :
    row nf (query centre) = centre := by
  apply List.ext_getElem
  · simp [row, h]
  · intro i h1 h2
    simp [row, query, h2]

end Generic

/-! ### boxes -/

theorem centreReal_length (box : List (Seg ℝ)) : (centreReal box).length = box.length := by
  simp [centreReal]

theorem centreInt_length (box : List (Seg ℤ)) : (centreInt box).length = box.length := by
  simp [centreInt]

open Classical in
/-- **C86**, floating data (exact real arithmetic; `inf` stands for the floating infinity), unlimited
capacity: building the tree with any options and searching it with a box returns exactly the samples
inside the closed box, each as often as it was supplied, with their Euclidean distances to the centre
of the box.  The box may be empty, degenerate or reversed. -/
theorem C86_box_float (eps : ℝ) (he : 0 ≤ eps) (nf : Nat) (x : Nat → Nat → ℝ) (box : List (Seg ℝ))
    (hbox : box.length = nf) (dist : Nat → ℝ)
    (hd : ∀ i, euclidean (row nf (x i)) (box.map (fun s => (s.lower + s.upper) / 2)) =
      some (dist i)) (inf : ℝ) (hinf : ∀ p a, |x p a - query (centreReal box) a| < inf)
    (policy : List Nat → Nat → Box ℝ → Nat) (bucketSize maxDepth : Nat)
    (hpol : ∀ idx d box, policy idx d box < nf) (vmax vlowest : ℝ) (idx : List Nat)
    (hn : idx.length < 2 ^ 64) :
    ∃ idx' t b, make (eqEps eps) x policy bucketSize maxDepth nf vmax vlowest idx = some (idx', t) ∧
      search x (query (centreReal box)) (boxOps euclidean (fun v w => |v - w|) nf x box
        (centreReal box)) t (Buffer.mk inf 0) = some b ∧
      b.indices.length = b.distances.length ∧
      (b.indices.zip b.distances).Perm
        ((idx.filter (fun i => InBox box (row nf (x i)))).map (fun i => (i, dist i))) := by
  obtain ⟨idx', t, e, hp, hi, _⟩ :=
    make_float eps he x policy bucketSize maxDepth nf hpol vmax vlowest idx
  have hpi : t.indices.Perm idx := hi ▸ hp
  have hd' : ∀ i, euclidean (row nf (x i)) (centreReal box) = some (dist i) := hd
  obtain ⟨b, h1, hl, h2⟩ := filter_any_tree x (query (centreReal box)) (fun v w => |v - w|) dist
    (fun i => InBox box (row nf (x i))) inf hinf t (by rw [hpi.length_eq]; exact hn)
  refine ⟨idx', t, b, e, ?_, hl, h2.trans ((hpi.filter _).map _)⟩
  rw [boxOps_eq hbox hd']
  exact h1

open Classical in
/-- **C86**, floating data, capacity `k >= 1`: `k` samples of the box that are nearest to its centre,
up to `2 * eps` (the epsilon equality of the construction). -/
theorem C86_box_nearest_float (eps : ℝ) (he : 0 ≤ eps) (nf : Nat) (x : Nat → Nat → ℝ)
    (box : List (Seg ℝ)) (hbox : box.length = nf) (dist : Nat → ℝ)
    (hd : ∀ i, euclidean (row nf (x i)) (box.map (fun s => (s.lower + s.upper) / 2)) =
      some (dist i))
    (policy : List Nat → Nat → Box ℝ → Nat) (bucketSize maxDepth : Nat)
    (hpol : ∀ idx d box, policy idx d box < nf) (vmax vlowest inf : ℝ) (idx : List Nat)
    (k : Nat) (hk : 1 ≤ k) (hk2 : k < 2 ^ 64) :
    ∃ idx' t b, make (eqEps eps) x policy bucketSize maxDepth nf vmax vlowest idx = some (idx', t) ∧
      search x (query (centreReal box)) (boxOps euclidean (fun v w => |v - w|) nf x box
        (centreReal box)) t (Buffer.mk inf k) = some b ∧
      b.indices.length = b.distances.length ∧
      IsKNearestUpTo (2 * eps) k (b.indices.zip b.distances)
        ((idx.filter (fun i => InBox box (row nf (x i)))).map (fun i => (i, dist i))) := by
  have hd' : ∀ i, euclidean (row nf (x i)) (centreReal box) = some (dist i) := hd
  have hq : row nf (query (centreReal box)) = centreReal box :=
    row_query (by rw [centreReal_length, hbox])
  have := search_float eps he nf x (query (centreReal box)) dist (fun i => by rw [hq, hd' i])
    (candIf (fun i => InBox box (row nf (x i))) dist) candIf_dist policy bucketSize maxDepth hpol
    vmax vlowest inf idx k hk hk2
  rw [cands_if] at this
  rw [boxOps_eq hbox hd']
  exact this

open Classical in
/-- **C86**, signed integral data, capacity `k >= 1`: `k` samples of the box that are nearest to its
cached centre for the Manhattan distance. -/
theorem C86_box_nearest_signed (nf : Nat) (x : Nat → Nat → ℤ) (box : List (Seg ℤ))
    (hbox : box.length = nf) (dist : Nat → ℤ)
    (hd : ∀ i, manhattan (row nf (x i)) (centreInt box) = some (dist i))
    (policy : List Nat → Nat → Box ℤ → Nat) (bucketSize maxDepth : Nat)
    (hpol : ∀ idx d box, policy idx d box < nf) (vmax vlowest inf : ℤ) (idx : List Nat)
    (k : Nat) (hk : 1 ≤ k) (hk2 : k < 2 ^ 64) :
    ∃ idx' t b, make eqExact x policy bucketSize maxDepth nf vmax vlowest idx = some (idx', t) ∧
      search x (query (centreInt box)) (boxOps manhattan (fun v w => |v - w|) nf x box
        (centreInt box)) t (Buffer.mk inf k) = some b ∧
      b.indices.length = b.distances.length ∧
      IsKNearest k (b.indices.zip b.distances)
        ((idx.filter (fun i => InBox box (row nf (x i)))).map (fun i => (i, dist i))) := by
  have hq : row nf (query (centreInt box)) = centreInt box :=
    row_query (by rw [centreInt_length, hbox])
  have := search_exact (gapSound_manhattan (x := x) (q := query (centreInt box)) (fun i => by rw [hq, hd i]))
    (candIf (fun i => InBox box (row nf (x i))) dist) candIf_dist policy bucketSize maxDepth hpol
    vmax vlowest idx inf k hk2 (Or.inl (by omega))
  rw [cands_if, capEff_of_pos hk] at this
  rw [boxOps_eq hbox hd]
  exact this

open Classical in
/-- **C86**, signed integral data: a capacity that is at least the number of samples in the box, but
not the default, makes the box search complete. What is missing for the full statement is the default
capacity, for which it is false (`C86_box_counterexample`). -/
theorem C86_box_signed_partial (nf : Nat) (x : Nat → Nat → ℤ) (box : List (Seg ℤ))
    (hbox : box.length = nf) (dist : Nat → ℤ)
    (hd : ∀ i, manhattan (row nf (x i)) (centreInt box) = some (dist i))
    (policy : List Nat → Nat → Box ℤ → Nat) (bucketSize maxDepth : Nat)
    (hpol : ∀ idx d box, policy idx d box < nf) (vmax vlowest inf : ℤ) (idx : List Nat)
    (k : Nat) (hk : 1 ≤ k) (hk2 : k < 2 ^ 64)
    (hn : (idx.filter (fun i => InBox box (row nf (x i)))).length ≤ k) :
    ∃ idx' t b, make eqExact x policy bucketSize maxDepth nf vmax vlowest idx = some (idx', t) ∧
      search x (query (centreInt box)) (boxOps manhattan (fun v w => |v - w|) nf x box
        (centreInt box)) t (Buffer.mk inf k) = some b ∧
      (b.indices.zip b.distances).Perm
        ((idx.filter (fun i => InBox box (row nf (x i)))).map (fun i => (i, dist i))) := by
  obtain ⟨idx', t, b, h1, h2, _, h3⟩ := C86_box_nearest_signed nf x box hbox dist hd policy
    bucketSize maxDepth hpol vmax vlowest inf idx k hk hk2
  exact ⟨idx', t, b, h1, h2, kept_all_of_le h3 (by simpa using hn)⟩

/-- **C86 fails on signed integral data with the default capacity.** Box [-5, 5] x [-5, 5], samples
(-100, 0), (1, 100), (2, 0), bucket size 1: sample 2 is inside the box but nothing is returned,
because `infinity<int>()` is `0` and the sibling subtree is pruned. -/
theorem C86_box_counterexample :
    (make eqExact planeX (fun _ d _ => d % 2) 1 10 2 1000 (-1000) [0, 1, 2]).bind (fun r =>
      (search planeX (query (centreInt [⟨-5, 5⟩, ⟨-5, 5⟩])) (boxOps manhattan (fun v w => |v - w|) 2
        planeX [⟨-5, 5⟩, ⟨-5, 5⟩] (centreInt [⟨-5, 5⟩, ⟨-5, 5⟩])) r.2 (Buffer.mk 0 0)).map
          (fun b => b.indices)) = some [] ∧
    boxContains [⟨-5, 5⟩, ⟨-5, 5⟩] (row 2 (planeX 2)) = some true := by decide +kernel

/-- With capacity 3 the same search returns sample 2: the hypotheses of `C86_box_signed_partial` are
met. -/
example :
    (make eqExact planeX (fun _ d _ => d % 2) 1 10 2 1000 (-1000) [0, 1, 2]).bind (fun r =>
      (search planeX (query (centreInt [⟨-5, 5⟩, ⟨-5, 5⟩])) (boxOps manhattan (fun v w => |v - w|) 2
        planeX [⟨-5, 5⟩, ⟨-5, 5⟩] (centreInt [⟨-5, 5⟩, ⟨-5, 5⟩])) r.2 (Buffer.mk 0 3)).map
          (fun b => (b.indices, b.distances))) = some ([2], [2]) := by decide +kernel

/-- **C86, the box must have a segment for every feature**: with one segment for samples of two
features a sample that passes the first segment reads past the segments. -/
theorem C86_short_box_counterexample :
    (make eqExact planeX (fun _ d _ => d % 2) 1 10 2 1000 (-1000) [0, 1, 2]).bind (fun r =>
      search planeX (query [0]) (boxOps manhattan (fun v w => |v - w|) 2 planeX [⟨-5, 5⟩]
        [0]) r.2 (Buffer.mk 0 3)) = none := by decide +kernel

/-- **C86**, the point distances are measured to on integral data: in every axis the cached centre is
the middle of the segment or at most one below it. -/
theorem C86_centre_signed (box : List (Seg ℤ)) (a : Nat) (s : Seg ℤ) (hs : box[a]? = some s)
    (h : s.lower ≤ s.upper) :
    ∃ c, (centreInt box)[a]? = some c ∧ 2 * c ≤ s.lower + s.upper ∧
      s.lower + s.upper ≤ 2 * (c + 1) := by
  obtain ⟨_, h1, h2, _⟩ := C63_centre_partial s.lower s.upper h
  exact ⟨centerInt s.lower s.upper, by simp [centreInt, hs], h1, h2⟩

/-! ### balls with a capacity -/

/-- **C86**, balls, signed integral data, capacity `k >= 1`: `k` nearest among the samples strictly
inside the radius. -/
theorem C86_ball_nearest_signed (nf : Nat) (x : Nat → Nat → ℤ) (q : Nat → ℤ) (dist : Nat → ℤ)
    (hd : ∀ i, manhattan (row nf (x i)) (row nf q) = some (dist i)) (radius : ℤ)
    (policy : List Nat → Nat → Box ℤ → Nat) (bucketSize maxDepth : Nat)
    (hpol : ∀ idx d box, policy idx d box < nf) (vmax vlowest inf : ℤ) (idx : List Nat)
    (k : Nat) (hk : 1 ≤ k) (hk2 : k < 2 ^ 64) :
    ∃ idx' t b, make eqExact x policy bucketSize maxDepth nf vmax vlowest idx = some (idx', t) ∧
      search x q (staticOps x q (fun v w => |v - w|) (candBall dist radius)) t (Buffer.mk inf k) =
        some b ∧
      b.indices.length = b.distances.length ∧
      IsKNearest k (b.indices.zip b.distances)
        ((idx.filter (fun i => dist i < radius)).map (fun i => (i, dist i))) := by
  have := search_exact (gapSound_manhattan hd) (candBall dist radius)
    (candIf_dist (P := fun i => dist i < radius)) policy bucketSize maxDepth hpol vmax vlowest idx inf
    k hk2 (Or.inl (by omega))
  rwa [cands_ball, capEff_of_pos hk] at this

/-- **C86**, balls, signed integral data: a capacity that is at least the number of samples inside the
radius, but not the default, makes the radius search complete. -/
theorem C86_ball_signed_partial (nf : Nat) (x : Nat → Nat → ℤ) (q : Nat → ℤ) (dist : Nat → ℤ)
    (hd : ∀ i, manhattan (row nf (x i)) (row nf q) = some (dist i)) (radius : ℤ)
    (policy : List Nat → Nat → Box ℤ → Nat) (bucketSize maxDepth : Nat)
    (hpol : ∀ idx d box, policy idx d box < nf) (vmax vlowest inf : ℤ) (idx : List Nat)
    (k : Nat) (hk : 1 ≤ k) (hk2 : k < 2 ^ 64)
    (hn : (idx.filter (fun i => dist i < radius)).length ≤ k) :
    ∃ idx' t b, make eqExact x policy bucketSize maxDepth nf vmax vlowest idx = some (idx', t) ∧
      search x q (staticOps x q (fun v w => |v - w|) (candBall dist radius)) t (Buffer.mk inf k) =
        some b ∧
      (b.indices.zip b.distances).Perm
        ((idx.filter (fun i => dist i < radius)).map (fun i => (i, dist i))) := by
  obtain ⟨idx', t, b, h1, h2, _, h3⟩ := C86_ball_nearest_signed nf x q dist hd radius policy
    bucketSize maxDepth hpol vmax vlowest inf idx k hk hk2
  exact ⟨idx', t, b, h1, h2, kept_all_of_le h3 (by simpa using hn)⟩

/-- **C86**, balls, floating data, capacity `k >= 1`, up to `2 * eps`. -/
theorem C86_ball_nearest_float (eps : ℝ) (he : 0 ≤ eps) (nf : Nat) (x : Nat → Nat → ℝ) (q : Nat → ℝ)
    (dist : Nat → ℝ) (hd : ∀ i, euclidean (row nf (x i)) (row nf q) = some (dist i)) (radius : ℝ)
    (policy : List Nat → Nat → Box ℝ → Nat) (bucketSize maxDepth : Nat)
    (hpol : ∀ idx d box, policy idx d box < nf) (vmax vlowest inf : ℝ) (idx : List Nat)
    (k : Nat) (hk : 1 ≤ k) (hk2 : k < 2 ^ 64) :
    ∃ idx' t b, make (eqEps eps) x policy bucketSize maxDepth nf vmax vlowest idx = some (idx', t) ∧
      search x q (staticOps x q (fun v w => |v - w|) (candBall dist radius)) t (Buffer.mk inf k) =
        some b ∧
      b.indices.length = b.distances.length ∧
      IsKNearestUpTo (2 * eps) k (b.indices.zip b.distances)
        ((idx.filter (fun i => dist i < radius)).map (fun i => (i, dist i))) := by
  have := search_float eps he nf x q dist hd (candBall dist radius)
    (candIf_dist (P := fun i => dist i < radius)) policy bucketSize maxDepth hpol vmax vlowest inf
    idx k hk hk2
  rwa [cands_ball] at this

/-- The radius search that loses sample 2 with the default capacity (`C15_signed_counterexample`)
finds it with capacity 3. -/
example :
    (make eqExact planeX (fun _ d _ => d % 2) 1 10 2 1000 (-1000) [0, 1, 2]).bind (fun r =>
      (search planeX (fun _ => 0) (staticOps planeX (fun _ => 0) (fun v w => |v - w|)
        (candBall (fun i => |planeX i 0| + |planeX i 1|) 5)) r.2 (Buffer.mk 0 3)).map
          (fun b => (b.indices, b.distances))) = some ([2], [2]) := by decide +kernel

end Verif.BoxSearch
