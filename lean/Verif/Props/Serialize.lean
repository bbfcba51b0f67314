import Verif.Lemmas.Serialize
import Verif.Props.KDTree
import Verif.Props.Dendrogram

/-
Property C85: serialised trees.
-/

namespace Verif.Serialize

open Verif.Sorting Verif.KDTree

/-- The number of samples that `KDTree::n_samples()` reports (KDTree.hpp:248-250 calling
`get_n_samples`, common/Utils.hpp:612-623): computed from the whole sample array, not from the index
range. -/
def reportedSamples (dataLength nFeatures : Nat) : Nat := dataLength / nFeatures

variable {K V : Type}

theorem saved_split {L R : K → K → Prop} (x : Nat → Nat → K) (nf : Nat) (t : KDTree.Tree K)
    (ha : t.AxesLt nf) (hs : t.SplitBy (fun a i p => L (x i a) (x p a)) (fun a p i => R (x p a) (x i a))) :
    (saved x nf t).Split nf L R := by
  induction t with
  | leaf idx box =>
    intro p hp
    obtain ⟨i, _, rfl⟩ := List.mem_map.1 hp
    simp
  | node p a box l r ihl ihr =>
    obtain ⟨ha0, hal, har⟩ := ha
    obtain ⟨h1, h2, h3, h4⟩ := hs
    refine ⟨by simp, ha0, ihl hal h3, ihr har h4, ?_, ?_⟩
    · intro q hq v w hv hw
      rw [saved_points] at hq
      obtain ⟨i, hi, rfl⟩ := List.mem_map.1 hq
      simp only [List.getElem?_map, List.getElem?_range ha0, Option.map_some,
        Option.some.injEq] at hv hw
      subst hv hw
      exact h1 i hi
    · intro q hq v w hv hw
      rw [saved_points] at hq
      obtain ⟨i, hi, rfl⟩ := List.mem_map.1 hq
      simp only [List.getElem?_map, List.getElem?_range ha0, Option.map_some,
        Option.some.injEq] at hv hw
      subst hv hw
      exact h2 i hi

theorem saved_pointIn [LinearOrder K] (x : Nat → Nat → K) (nf : Nat) (vmax vlowest : K)
    (idx : List Nat) (i : Nat) (hi : i ∈ idx) :
    PointIn (tightBound x nf vmax vlowest idx) ((List.range nf).map (x i)) := by
  refine ⟨by simp [tightBound_length], ?_⟩
  intro f seg v hs hv
  have hf : f < nf := by
    have := lt_of_getElem? hs
    rwa [tightBound_length] at this
  simp only [List.getElem?_map, List.getElem?_range hf, Option.map_some, Option.some.injEq] at hv
  subst hv
  exact tightBound_inBox x nf vmax vlowest idx i hi f seg hs

/-- What the file of a tree over the samples `idx` must say. -/
structure Describes [LinearOrder K] (x : Nat → Nat → K) (bucketSize maxDepth nf : Nat)
    (vmax vlowest : K) (idx : List Nat) (L R : K → K → Prop) (s : SavedKD K) : Prop where
  samples : s.nSamples = idx.length
  features : s.nFeatures = nf
  bucket : s.bucketSize = bucketSize
  depth : s.maxDepth = maxDepth
  points : s.root.points.Perm (idx.map fun i => (List.range nf).map (x i))
  split : s.root.Split nf L R
  box : s.box = tightBound x nf vmax vlowest idx
  inside : ∀ p ∈ s.root.points, PointIn s.box p

theorem describes_of_make [LinearOrder K] {L R : K → K → Prop} (num : K → Tok V)
    (hn : ∀ v, IsNum (num v)) (val : Json V → Option K) (eqv : K → K → Bool) (x : Nat → Nat → K)
    (policy : List Nat → Nat → Box K → Nat) (bucketSize maxDepth nf : Nat) (vmax vlowest : K)
    (idx idx' : List Nat) (t : KDTree.Tree K)
    (e : make eqv x policy bucketSize maxDepth nf vmax vlowest idx = some (idx', t))
    (hp : idx'.Perm idx) (hi : t.indices = idx') (ha : t.AxesLt nf)
    (hs : t.SplitBy (fun a i p => L (x i a) (x p a)) (fun a p i => R (x p a) (x i a)))
    (hv : ∀ i ∈ idx, ∀ f, f < nf → val (numDoc (num (x i f))) = some (x i f))
    (hbox : ∀ b ∈ tightBound x nf vmax vlowest idx,
      val (numDoc (num b.1)) = some b.1 ∧ val (numDoc (num b.2)) = some b.2)
    (h1 : idx.length < 2 ^ 63) (h2 : nf < 2 ^ 63) (h3 : bucketSize < 2 ^ 63)
    (h4 : maxDepth < 2 ^ 63) :
    ∃ kd ts s, construct eqv x policy bucketSize maxDepth nf vmax vlowest idx = some kd ∧
      kdFile num x kd = some ts ∧ readKDFile val ts = some s ∧
      Describes x bucketSize maxDepth nf vmax vlowest idx L R s := by
  refine ⟨⟨bucketSize, maxDepth, some idx.length, nf, tightBound x nf vmax vlowest idx, t⟩, ?_⟩
  obtain ⟨ts, e1, e2⟩ := kdFile_read num hn val x
    ⟨bucketSize, maxDepth, some idx.length, nf, tightBound x nf vmax vlowest idx, t⟩ idx.length rfl
    (tightBound_length ..) ha (fun i hi' f hf => hv i (by
      dsimp only at hi'
      rw [hi] at hi'
      exact hp.mem_iff.1 hi') f hf) hbox h1 h2 h3 h4
  refine ⟨ts, _, by simp [construct, e], e1, e2, ⟨rfl, rfl, rfl, rfl, ?_, ?_, rfl, ?_⟩⟩
  · show (saved x nf t).points.Perm _
    rw [saved_points, hi]
    exact hp.map _
  · exact saved_split x nf t ha hs
  · intro p hpp
    rw [show (saved x nf t).points = _ from saved_points x nf t] at hpp
    obtain ⟨i, hi', rfl⟩ := List.mem_map.1 hpp
    exact saved_pointIn x nf vmax vlowest idx i (hp.mem_iff.1 (hi ▸ hi'))

/-- **C85**, floating data. For every sample set and index range, axis policy and options below 2^63,
the file written for the tree is one well-formed JSON object, and reading it back gives the number of
points, the options, the rows of the samples of the index range (each as often as it occurs there), cuts
that separate them up to the tolerance of the construction, and the tight bounding box around them. -/
theorem C85_float {F : Type} [Field F] [LinearOrder F] [IsStrictOrderedRing F]
    (eps : F) (he : 0 ≤ eps) (x : Nat → Nat → F) (policy : List Nat → Nat → Box F → Nat)
    (bucketSize maxDepth nf : Nat) (hpol : ∀ idx d box, policy idx d box < nf) (vmax vlowest : F)
    (idx : List Nat) (h1 : idx.length < 2 ^ 63) (h2 : nf < 2 ^ 63) (h3 : bucketSize < 2 ^ 63)
    (h4 : maxDepth < 2 ^ 63) :
    ∃ kd ts s, construct (eqEps eps) x policy bucketSize maxDepth nf vmax vlowest idx = some kd ∧
      kdFile doubleNum x kd = some ts ∧ readKDFile Json.toDouble ts = some s ∧
      Describes x bucketSize maxDepth nf vmax vlowest idx (fun v c => v ≤ c + 2 * eps)
        (fun c v => c ≤ v + 2 * eps) s := by
  obtain ⟨idx', t, e, hp, hi, _, hs, _, ha, _⟩ :=
    make_float eps he x policy bucketSize maxDepth nf hpol vmax vlowest idx
  exact describes_of_make doubleNum (fun _ => trivial) Json.toDouble (eqEps eps) x policy bucketSize
    maxDepth nf vmax vlowest idx idx' t e hp hi ha hs (fun _ _ _ _ => rfl)
    (fun _ _ => ⟨rfl, rfl⟩) h1 h2 h3 h4

/-- A value of a signed integral type of at most 64 bits. -/
def IsInt64 (v : Int) : Prop := -2 ^ 63 ≤ v ∧ v < 2 ^ 63

theorem intNum_reads {v : Int} (h : IsInt64 v) : (numDoc (intNum v)).toInt = some v := by
  show some (toInt64 v) = some v
  rw [toInt64_of_lt h.1 h.2]

theorem tightBound_all [LinearOrder K] (P : K → Prop) (x : Nat → Nat → K) (nf : Nat)
    (vmax vlowest : K) (idx : List Nat) (hm : P vmax) (hl : P vlowest)
    (hx : ∀ i ∈ idx, ∀ f, f < nf → P (x i f)) :
    ∀ b ∈ tightBound x nf vmax vlowest idx, P b.1 ∧ P b.2 := by
  intro b hb
  obtain ⟨f, hf, e⟩ := List.getElem_of_mem hb
  have hf' : f < nf := by rwa [tightBound_length] at hf
  have e' : (tightBound x nf vmax vlowest idx)[f]? = some b := by
    rw [List.getElem?_eq_getElem hf, e]
  obtain ⟨lo, hi, e2, _, _, _, h4, h5⟩ := tightFold_get x f idx
    (List.replicate nf (vmax, vlowest)) (vmax, vlowest) (by simp [hf'])
  unfold tightBound at e'
  rw [e2] at e'
  simp only [Option.some.injEq] at e'
  subst e'
  constructor
  · rcases h4 with h4 | ⟨i, hi', h4⟩
    · dsimp only at h4 ⊢; rw [h4]; exact hm
    · dsimp only; rw [h4]; exact hx i hi' f hf'
  · rcases h5 with h5 | ⟨i, hi', h5⟩
    · dsimp only at h5 ⊢; rw [h5]; exact hl
    · dsimp only; rw [h5]; exact hx i hi' f hf'

/-- **C85**, integral data whose values fit in `int64_t` (all signed types, and unsigned types of at
most 32 bits): as for floating data, with exact cuts. -/
theorem C85_integral_partial (x : Nat → Nat → Int) (policy : List Nat → Nat → Box Int → Nat)
    (bucketSize maxDepth nf : Nat) (hpol : ∀ idx d box, policy idx d box < nf) (vmax vlowest : Int)
    (idx : List Nat) (hm : IsInt64 vmax) (hl : IsInt64 vlowest)
    (hx : ∀ i ∈ idx, ∀ f, f < nf → IsInt64 (x i f))
    (h1 : idx.length < 2 ^ 63) (h2 : nf < 2 ^ 63) (h3 : bucketSize < 2 ^ 63)
    (h4 : maxDepth < 2 ^ 63) :
    ∃ kd ts s, construct eqExact x policy bucketSize maxDepth nf vmax vlowest idx = some kd ∧
      kdFile intNum x kd = some ts ∧ readKDFile Json.toInt ts = some s ∧
      Describes x bucketSize maxDepth nf vmax vlowest idx (· < ·) (· ≤ ·) s := by
  obtain ⟨idx', t, e, hp, hi, _, hs, _, ha, _⟩ :=
    make_exact x policy bucketSize maxDepth nf hpol vmax vlowest idx
  exact describes_of_make intNum (fun _ => trivial) Json.toInt eqExact x policy bucketSize
    maxDepth nf vmax vlowest idx idx' t e hp hi ha hs
    (fun i hi f hf => intNum_reads (hx i hi f hf))
    (fun b hb => by
      obtain ⟨k1, k2⟩ := tightBound_all IsInt64 x nf vmax vlowest idx hm hl hx b hb
      exact ⟨intNum_reads k1, intNum_reads k2⟩) h1 h2 h3 h4

/-- **C85**, counterexample for `uint64_t` data: the sample 2^63 is read back as -2^63. -/
theorem C85_unsigned_counterexample :
    ∃ kd ts s, construct eqExact (fun _ _ => (2 ^ 63 : Int)) (fun _ _ _ => 0) 40 5 1
        (2 ^ 64 - 1) 0 [0] = some kd ∧
      kdFile intNum (fun _ _ => (2 ^ 63 : Int)) kd = some ts ∧ readKDFile Json.toInt ts = some s ∧
      s.root.points = [[-2 ^ 63]] := by
  refine ⟨_, _, _, rfl, rfl, rfl, ?_⟩
  decide +kernel

/-- **C85**, copy: a copy of a tree writes the same file as the tree, whatever the tree. -/
theorem C85_copy (num : K → Tok V) (x : Nat → Nat → K) (t : KD K) :
    kdFile num x t.copy = kdFile num x t := rfl

/-- **C85**, move: a move-constructed tree cannot be serialised, `n_samples_` is read uninitialised,
whatever the tree. -/
theorem C85_moved_counterexample (num : K → Tok V) (x : Nat → Nat → K) (t : KD K) :
    kdFile num x t.moved = none := rfl

/-- **C85**, `n_samples()` is not the `n_samples` of the file: a tree over one of the two samples of the
array reports two. -/
theorem C85_n_samples_counterexample :
    ∃ kd ts s, construct (eqEps (0 : ℚ)) (fun i _ => (i : ℚ)) (fun _ _ _ => 0) 40 5 1 1000 (-1000) [1] =
        some kd ∧
      kdFile doubleNum (fun i _ => (i : ℚ)) kd = some ts ∧ readKDFile Json.toDouble ts = some s ∧
      s.nSamples = 1 ∧ reportedSamples 2 1 = 2 := by
  refine ⟨_, _, _, rfl, rfl, rfl, ?_⟩
  decide +kernel

/-! ### single linkage -/

section Link

open Verif.Dendrogram Verif.ClosestPair

variable {D : Type} [Zero D]

theorem writable_of (num : D → Tok V) (val : Json V → Option D) (t : STree D)
    (h : ∀ s ∈ t.subtrees, s.representative < 2 ^ 63 ∧ s.size < 2 ^ 63 ∧
      val (numDoc (num s.level)) = some s.level) : Writable num val t := by
  induction t with
  | leaf r => exact (h (.leaf r) (by simp [STree.subtrees])).1
  | node r level size l r' ihl ihr =>
    obtain ⟨h1, h2, h3⟩ := h (.node r level size l r') (by simp [STree.subtrees])
    exact ⟨h1, h3, h2, ihl (fun s hs => h s (by simp [STree.subtrees, hs])),
      ihr (fun s hs => h s (by simp [STree.subtrees, hs]))⟩

theorem mem_leaves_of_subtree {t s : STree D} (h : s ∈ t.subtrees) :
    ∀ i ∈ s.leaves, i ∈ t.leaves := by
  induction t with
  | leaf r =>
    simp only [STree.subtrees, List.mem_singleton] at h
    subst h
    exact fun _ hi => hi
  | node r level size l r' ihl ihr =>
    simp only [STree.subtrees, List.mem_cons, List.mem_append] at h
    rcases h with rfl | h | h
    · exact fun _ hi => hi
    · exact fun i hi => List.mem_append_left _ (ihl h i hi)
    · exact fun i hi => List.mem_append_right _ (ihr h i hi)

theorem leaves_length_of_subtree {t s : STree D} (h : s ∈ t.subtrees) :
    s.leaves.length ≤ t.leaves.length := by
  induction t with
  | leaf r =>
    simp only [STree.subtrees, List.mem_singleton] at h
    subst h
    exact le_refl _
  | node r level size l r' ihl ihr =>
    simp only [STree.subtrees, List.mem_cons, List.mem_append] at h
    rcases h with rfl | h | h
    · exact le_refl _
    · have := ihl h
      simp only [STree.leaves, List.length_append]
      omega
    · have := ihr h
      simp only [STree.leaves, List.length_append]
      omega

end Link

section LinkFile

open Verif.Dendrogram Verif.ClosestPair Verif.Graph

variable {D : Type} [AddCommGroup D] [LinearOrder D]

theorem link_read {n : Nat} {mst es : List (Edge D)} (ht : IsSpanningTree n mst)
    (hw : ∀ e ∈ mst, 0 ≤ e.2.2) (hp : es.Perm mst) (hs : es.Pairwise (fun a b => a.2.2 ≤ b.2.2))
    (hn : n < 2 ^ 63) (num : D → Tok V) (hnum : ∀ v, IsNum (num v)) (val : Json V → Option D)
    (hv : ∀ t, build es = some t → ∀ s ∈ t.subtrees, val (numDoc (num s.level)) = some s.level)
    (h0 : val (numDoc (num 0)) = some 0) :
    ∃ t, build es = some t ∧ readLinkFile val (linkFile num t) = some t := by
  obtain ⟨t, h1, h2, h3, _⟩ := build_spec ht hp (fun e he => hw e (hp.mem_iff.1 he)) hs
  refine ⟨t, h1, linkFile_read num hnum val h0 t (writable_of num val t fun s hs' => ?_)⟩
  have hlen : t.leaves.length = n := by
    have hperm : t.leaves.Perm (List.range n) := by
      rw [List.perm_ext_iff_of_nodup h2.nodup List.nodup_range]
      intro x; rw [h3, List.mem_range]
    rw [hperm.length_eq, List.length_range]
  refine ⟨?_, ?_, hv t h1 s hs'⟩
  · have := (h3 _).1 (mem_leaves_of_subtree hs' _ (h2.rep s hs'))
    omega
  · have := leaves_length_of_subtree hs'
    rw [h2.size s hs']
    omega

/-- **C85**, single linkage tree with floating distances: for every spanning tree of fewer than 2^63
samples with non-negative weights, reading back the file gives exactly the tree that was built. -/
theorem C85_link_float {n : Nat} {mst es : List (Edge D)} (ht : IsSpanningTree n mst)
    (hw : ∀ e ∈ mst, 0 ≤ e.2.2) (hp : es.Perm mst) (hs : es.Pairwise (fun a b => a.2.2 ≤ b.2.2))
    (hn : n < 2 ^ 63) :
    ∃ t, build es = some t ∧ readLinkFile Json.toDouble (linkFile doubleNum t) = some t :=
  link_read ht hw hp hs hn doubleNum (fun _ => trivial) Json.toDouble (fun _ _ _ _ => rfl) rfl

theorem lookup_mem {nodes : List (Nat × STree D)} {k : Nat} {t : STree D}
    (h : lookup nodes k = some t) : ∃ k', (k', t) ∈ nodes := by
  unfold lookup at h
  obtain ⟨p, hp, rfl⟩ := Option.map_eq_some_iff.1 h
  exact ⟨p.1, List.mem_of_find?_eq_some hp⟩

theorem foldlM_levels (P : D → Prop) (es : List (Edge D)) (he : ∀ e ∈ es, P e.2.2)
    (st st' : UF.State × List (Nat × STree D))
    (h : ∀ p ∈ st.2, ∀ s ∈ p.2.subtrees, P s.level) (e : es.foldlM buildStep st = some st') :
    ∀ p ∈ st'.2, ∀ s ∈ p.2.subtrees, P s.level := by
  induction es generalizing st with
  | nil =>
    simp only [List.foldlM_nil, Option.pure_def, Option.some.injEq] at e
    subst e
    exact h
  | cons ed es ih =>
    simp only [List.foldlM_cons, Option.bind_eq_bind, Option.bind_eq_some_iff] at e
    obtain ⟨st1, e1, e2⟩ := e
    refine ih (fun x hx => he x (by simp [hx])) st1 ?_ e2
    obtain ⟨u, nodes⟩ := st
    simp only [buildStep, Option.bind_eq_bind, Option.bind_eq_some_iff] at e1
    obtain ⟨⟨u1, r1⟩, _, ⟨u2, r2⟩, _, ⟨u3, c⟩, _, e1⟩ := e1
    dsimp only at e1
    split at e1
    · simp only [Option.bind_eq_some_iff, Option.some.injEq] at e1
      obtain ⟨t1, l1, t2, l2, rfl⟩ := e1
      obtain ⟨k1, m1⟩ := lookup_mem l1
      obtain ⟨k2, m2⟩ := lookup_mem l2
      intro p hp s hs
      rcases List.mem_cons.1 hp with rfl | hp
      · simp only [STree.subtrees, List.mem_cons, List.mem_append] at hs
        rcases hs with rfl | hs | hs
        · exact he ed (by simp)
        · exact h _ m1 s hs
        · exact h _ m2 s hs
      · exact h p (List.mem_of_mem_filter hp) s hs
    · simp only [Option.some.injEq] at e1
      subst e1
      exact h

theorem build_levels (P : D → Prop) (h0 : P 0) (es : List (Edge D)) (he : ∀ e ∈ es, P e.2.2)
    (t : STree D) (e : build es = some t) : ∀ s ∈ t.subtrees, P s.level := by
  simp only [Dendrogram.build, Option.bind_eq_bind, Option.bind_eq_some_iff, Option.some.injEq] at e
  obtain ⟨⟨u, nodes⟩, e1, p, e2, rfl⟩ := e
  refine foldlM_levels P es he _ _ ?_ e1 p (List.mem_of_mem_head? e2)
  intro p hp s hs
  obtain ⟨i, _, rfl⟩ := List.mem_map.1 hp
  simp only [STree.subtrees, List.mem_singleton] at hs
  subst hs
  exact h0

end LinkFile

section LinkInt

open Verif.Dendrogram Verif.ClosestPair Verif.Graph

/-- **C85**, single linkage tree with integral distances that fit in `int64_t`. -/
theorem C85_link_integral_partial {n : Nat} {mst es : List (Edge Int)} (ht : IsSpanningTree n mst)
    (hw : ∀ e ∈ mst, 0 ≤ e.2.2) (hb : ∀ e ∈ mst, e.2.2 < 2 ^ 63) (hp : es.Perm mst)
    (hs : es.Pairwise (fun a b => a.2.2 ≤ b.2.2)) (hn : n < 2 ^ 63) :
    ∃ t, build es = some t ∧ readLinkFile Json.toInt (linkFile intNum t) = some t := by
  refine link_read ht hw hp hs hn intNum (fun _ => trivial) Json.toInt (fun t e s hs' => ?_)
    (intNum_reads ⟨by norm_num, by norm_num⟩)
  refine intNum_reads (build_levels IsInt64 ⟨by norm_num, by norm_num⟩ es (fun ed hed => ?_) t e s hs')
  have hm := hp.mem_iff.1 hed
  exact ⟨le_trans (by norm_num) (hw ed hm), hb ed hm⟩

/-- Concrete case: three samples, two merges. -/
example : ∃ t, build [(0, 1, (2 : Int)), (1, 2, 5)] = some t ∧ t.size = 3 ∧ t.level = 5 ∧
    readLinkFile Json.toInt (linkFile intNum t) = some t := by
  refine ⟨_, rfl, ?_⟩
  decide +kernel

end LinkInt

/-- Concrete case: five samples on a line, bucket size 1: the file has three levels and all five
points. -/
example : ∃ kd ts s,
    construct eqExact (fun i _ => ([3, -1, 4, 1, 5].getD i 0 : Int)) (fun _ _ _ => 0) 1 9 1
        (2 ^ 31 - 1) (-2 ^ 31) [0, 1, 2, 3, 4] = some kd ∧
      kdFile intNum (fun i _ => ([3, -1, 4, 1, 5].getD i 0 : Int)) kd = some ts ∧
      readKDFile Json.toInt ts = some s ∧ s.nSamples = 5 ∧ s.box = [(-1, 5)] ∧
      s.root = .node [3] 0 (.node [-1] 0 (.leaf []) (.leaf [[1]])) (.node [4] 0 (.leaf []) (.leaf [[5]])) := by
  refine ⟨_, _, _, rfl, rfl, rfl, ?_⟩
  decide +kernel

end Verif.Serialize
