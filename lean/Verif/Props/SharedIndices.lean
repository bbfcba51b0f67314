import Verif.Lemmas.SharedIndices
import Verif.Props.Search
import Mathlib.Algebra.Order.Group.Int

/-
**C100** Trees over a shared index array.  A k-d tree reorders the index array of its caller and keeps
iterators into it.
-/

namespace Verif.Search

open Verif.KDTree Verif.Buffer Verif.Sorting Verif.Distances

set_option linter.unusedSectionVars false

section General

variable {K : Type} [LT K] [DecidableLT K]

theorem construct_inv {eqv : K → K → Bool} {x : Nat → Nat → K} {policy : List Nat → Nat → Box K → Nat}
    {bucketSize maxDepth nf first last : Nat} {vmax vlowest : K} {arr arr' : List Nat} {s : Shape K}
    (h : construct eqv x policy bucketSize maxDepth nf vmax vlowest first last arr = some (arr', s)) :
    first ≤ last ∧ last ≤ arr.length ∧ ∃ range t,
      make eqv x policy bucketSize maxDepth nf vmax vlowest ((arr.drop first).take (last - first)) =
        some (range, t) ∧ arr' = arr.take first ++ range ++ arr.drop last ∧ s = t.shape first := by
  unfold construct at h
  split at h
  · rename_i hc
    simp only [Option.bind_eq_bind] at h
    obtain ⟨⟨range, t⟩, h1, h2⟩ := Option.bind_eq_some_iff.1 h
    simp only [Option.some.injEq, Prod.mk.injEq] at h2
    exact ⟨hc.1, hc.2, range, t, h1, h2.1.symm, h2.2.symm⟩
  · simp at h

/-- An array is what is before a range, the range, and what is after. -/
theorem split_range {first last : Nat} {arr : List Nat} (h1 : first ≤ last) (h2 : last ≤ arr.length) :
    arr = arr.take first ++ (arr.drop first).take (last - first) ++ arr.drop last := by
  have h : (arr.drop first).drop (last - first) = arr.drop last := by
    rw [List.drop_drop]; congr 1; omega
  rw [← h, List.append_assoc, List.take_append_drop, List.take_append_drop]

/-- What a tree reads depends on the range it was built on only. -/
theorem view_congr (t : KDTree.Tree K) (first last : Nat) (arr arr' : List Nat) (h1 : first ≤ last)
    (hlen : t.indices.length = last - first) (h2 : last ≤ arr.length) (h3 : last ≤ arr'.length)
    (h : (arr.drop first).take (last - first) = (arr'.drop first).take (last - first)) :
    (t.shape first).view arr = (t.shape first).view arr' := by
  induction t generalizing first last with
  | leaf idx box =>
    have hl : idx.length = last - first := hlen
    simp only [Tree.shape, Shape.view]
    rw [if_pos (by omega), if_pos (by omega), show first + idx.length - first = last - first by omega, h]
  | node p a box l r ihl ihr =>
    simp only [Tree.indices, List.length_append, List.length_cons] at hlen
    have hget : ∀ i, i < last - first → arr[first + i]? = arr'[first + i]? := by
      intro i hi
      have := congrArg (fun l => l[i]?) h
      simpa [List.getElem?_take, hi, List.getElem?_drop] using this
    have hsub : ∀ u v, first ≤ u → v ≤ last →
        (arr.drop u).take (v - u) = (arr'.drop u).take (v - u) := by
      intro u v hu hv
      refine List.ext_getElem? fun i => ?_
      simp only [List.getElem?_take, List.getElem?_drop]
      split
      · have := hget (u - first + i) (by omega)
        rwa [show first + (u - first + i) = u + i by omega] at this
      · rfl
    simp only [Tree.shape, Shape.view]
    rw [Tree.size_eq, hget _ (by omega),
      ihl first (first + l.indices.length) (by omega) (by omega) (by omega) (by omega)
        (hsub _ _ (by omega) (by omega)),
      ihr (first + l.indices.length + 1) last (by omega) (by omega) (by omega) (by omega)
        (hsub _ _ (by omega) (by omega))]

/-- **C100**, one tree: the construction reorders the caller's indices inside its range and nowhere else,
and through its iterators the tree holds what the constructor put there.  Any data (also with NaN), any
comparison. -/
theorem C100_own {eqv : K → K → Bool} (ho : AnyOrder eqv) (x : Nat → Nat → K)
    (policy : List Nat → Nat → Box K → Nat) (bucketSize maxDepth nf : Nat)
    (hpol : ∀ idx d box, policy idx d box < nf) (vmax vlowest : K) (first last : Nat) (arr : List Nat)
    (h1 : first ≤ last) (h2 : last ≤ arr.length) :
    ∃ arr' s range t,
      construct eqv x policy bucketSize maxDepth nf vmax vlowest first last arr = some (arr', s) ∧
      arr'.Perm arr ∧ arr'.take first = arr.take first ∧ arr'.drop last = arr.drop last ∧
      make eqv x policy bucketSize maxDepth nf vmax vlowest ((arr.drop first).take (last - first)) =
        some (range, t) ∧
      (arr'.drop first).take (last - first) = range ∧ s.view arr' = some t := by
  obtain ⟨range, t, e, hp, hi, _⟩ := make_safe ho x policy bucketSize maxDepth nf hpol vmax vlowest
    ((arr.drop first).take (last - first))
  have hlen : range.length = last - first := by rw [hp.length_eq]; simp; omega
  have htf : (arr.take first).length = first := by simp; omega
  refine ⟨arr.take first ++ range ++ arr.drop last, t.shape first, range, t, ?_, ?_, ?_, ?_, e, ?_, ?_⟩
  · unfold construct
    rw [if_pos ⟨h1, h2⟩]
    simp [e]
  · conv_rhs => rw [split_range h1 h2]
    exact (hp.append_left _).append_right _
  · rw [List.append_assoc, List.take_left' htf]
  · rw [List.drop_left' (by simp [hlen]; omega)]
  · rw [List.append_assoc, List.drop_left' htf, List.take_left' hlen]
  · have := view_self t (arr.take first) (arr.drop last)
    rwa [htf, hi] at this

/-- **C100**, disjoint ranges: whatever happens to the array outside the range of a tree, later
constructions included, its searches return the same. -/
theorem C100_disjoint {eqv : K → K → Bool} (ho : AnyOrder eqv) {x : Nat → Nat → K}
    {policy : List Nat → Nat → Box K → Nat} {bucketSize maxDepth nf : Nat}
    (hpol : ∀ idx d box, policy idx d box < nf) {vmax vlowest : K} {first last : Nat}
    {arr arr' arr'' : List Nat} {s : Shape K}
    (h : construct eqv x policy bucketSize maxDepth nf vmax vlowest first last arr = some (arr', s))
    (hlen : last ≤ arr''.length)
    (hsame : (arr''.drop first).take (last - first) = (arr'.drop first).take (last - first))
    {B : Type} (q : Nat → K) (ops : BufferOps B) (b : B) :
    searchShared x q ops arr'' s b = searchShared x q ops arr' s b := by
  obtain ⟨h1, h2, range, t, e, rfl, rfl⟩ := construct_inv h
  obtain ⟨range', t', e', hp, hi, _⟩ := make_safe ho x policy bucketSize maxDepth nf hpol vmax vlowest
    ((arr.drop first).take (last - first))
  rw [e] at e'
  simp only [Option.some.injEq, Prod.mk.injEq] at e'
  obtain ⟨rfl, rfl⟩ := e'
  have hl : range.length = last - first := by rw [hp.length_eq]; simp; omega
  unfold searchShared
  rw [view_congr t first last _ _ h1 (by rw [hi, hl]) hlen (by simp [hl]; omega) hsame]

/-- **C100**, two trees over disjoint ranges of one array: the construction of the second does not change
the searches of the first, and its own searches are those of a tree of its own. -/
theorem C100_two {eqv eqv2 : K → K → Bool} (ho : AnyOrder eqv) (ho2 : AnyOrder eqv2) {x : Nat → Nat → K}
    {policy policy2 : List Nat → Nat → Box K → Nat} {bucket depth bucket2 depth2 nf : Nat}
    (hpol : ∀ idx d box, policy idx d box < nf) (hpol2 : ∀ idx d box, policy2 idx d box < nf)
    {vmax vlowest : K} {first last first2 last2 : Nat} {arr arr' arr'' : List Nat} {s s2 : Shape K}
    (h : construct eqv x policy bucket depth nf vmax vlowest first last arr = some (arr', s))
    (h2 : construct eqv2 x policy2 bucket2 depth2 nf vmax vlowest first2 last2 arr' = some (arr'', s2))
    (hd : last ≤ first2 ∨ last2 ≤ first) {B : Type} (q : Nat → K) (ops : BufferOps B) (b : B) :
    searchShared x q ops arr'' s b = searchShared x q ops arr' s b ∧
    ∃ range t, make eqv2 x policy2 bucket2 depth2 nf vmax vlowest
        ((arr.drop first2).take (last2 - first2)) = some (range, t) ∧
      searchShared x q ops arr'' s2 b = search x q ops t b := by
  obtain ⟨a1, a2, _⟩ := construct_inv h
  obtain ⟨b1, b2, _⟩ := construct_inv h2
  obtain ⟨w, sw, rw', tw, c1, c2, c3, c4, c5, c6, c7⟩ :=
    C100_own ho x policy bucket depth nf hpol vmax vlowest first last arr a1 a2
  rw [h] at c1
  simp only [Option.some.injEq, Prod.mk.injEq] at c1
  obtain ⟨rfl, rfl⟩ := c1
  obtain ⟨w, sw, rw2, tw2, d1, d2, d3, d4, d5, d6, d7⟩ :=
    C100_own ho2 x policy2 bucket2 depth2 nf hpol2 vmax vlowest first2 last2 arr' b1 b2
  rw [h2] at d1
  simp only [Option.some.injEq, Prod.mk.injEq] at d1
  obtain ⟨rfl, rfl⟩ := d1
  -- ranges apart from the written one are the same
  have hapart : ∀ {u v f l : Nat} {y z : List Nat}, z.take f = y.take f → z.drop l = y.drop l →
      (v ≤ f ∨ l ≤ u) → (z.drop u).take (v - u) = (y.drop u).take (v - u) := by
    intro u v f l y z ht hdr hh
    rcases hh with hh | hh
    · have e : ∀ w : List Nat, (w.drop u).take (v - u) = ((w.take f).drop u).take (v - u) := by
        intro w
        rw [List.drop_take, List.take_take, Nat.min_eq_left (by omega)]
      rw [e z, e y, ht]
    · have e : ∀ w : List Nat, w.drop u = (w.drop l).drop (u - l) := by
        intro w
        rw [List.drop_drop]; congr 1; omega
      rw [e z, e y, hdr]
  constructor
  · refine C100_disjoint ho hpol h (by rw [d2.length_eq, c2.length_eq]; exact a2) (hapart d3 d4 ?_) q ops b
    exact hd
  · refine ⟨rw2, tw2, ?_, by simp [searchShared, d7]⟩
    rw [← d5]
    congr 1
    exact (hapart c3 c4 (by omega)).symm

end General

/-- **C100**, the same range in any order: a radius search on floating data stays exact through any
reordering of the range of its tree, for instance by other trees built on it. -/
theorem C100_radius {K : Type} [LinearOrder K] {D : Type} [LinearOrder D] {eqv : K → K → Bool}
    (ho : AnyOrder eqv) {x : Nat → Nat → K} {policy : List Nat → Nat → Box K → Nat}
    {bucketSize maxDepth nf : Nat} (hpol : ∀ idx d box, policy idx d box < nf) {vmax vlowest : K}
    {first last : Nat} {arr arr' arr'' : List Nat} {s : Shape K}
    (h : construct eqv x policy bucketSize maxDepth nf vmax vlowest first last arr = some (arr', s))
    (hbound : last ≤ arr''.length)
    (hperm : ((arr''.drop first).take (last - first)).Perm ((arr.drop first).take (last - first)))
    (q : Nat → K) (gap : K → K → D) (dist : Nat → D) (radius inf : D)
    (hinf : ∀ p a, gap (x p a) (q a) < inf) (hn : last < 2 ^ 64) :
    ∃ b, searchShared x q (staticOps x q gap (candBall dist radius)) arr'' s (Buffer.mk inf 0) = some b ∧
      b.indices.length = b.distances.length ∧
      (b.indices.zip b.distances).Perm
        ((((arr.drop first).take (last - first)).filter (fun i => dist i < radius)).map
          (fun i => (i, dist i))) := by
  obtain ⟨h1, h2, range, t, e, rfl, rfl⟩ := construct_inv h
  obtain ⟨range', t', e', hp, hi, _⟩ := make_safe ho x policy bucketSize maxDepth nf hpol vmax vlowest
    ((arr.drop first).take (last - first))
  rw [e] at e'
  simp only [Option.some.injEq, Prod.mk.injEq] at e'
  obtain ⟨rfl, rfl⟩ := e'
  have hl : range.length = last - first := by rw [hp.length_eq]; simp; omega
  have hl2 : ((arr''.drop first).take (last - first)).length = last - first := by
    rw [hperm.length_eq]; simp; omega
  obtain ⟨t', hv, hti⟩ := view_fits t (arr''.take first) ((arr''.drop first).take (last - first))
    (arr''.drop last) (by rw [hl2, hi, hl])
  rw [← split_range h1 hbound, show (arr''.take first).length = first by simp; omega] at hv
  obtain ⟨b, e1, e2, e3⟩ := radius_any_tree x q gap dist radius inf (GapBelow.of_lt hinf) t'
    (by rw [hti, hl2]; omega)
  refine ⟨b, by simp [searchShared, hv, e1], e2, e3.trans ?_⟩
  rw [hti]
  exact (hperm.filter _).map _

/-- What may happen to the index array: further constructions over the range `[first, last)` with the same
axis policy, with any bucket size and depth, and any changes outside of the range. -/
inductive Rebuilt {K : Type} [LT K] [DecidableLT K] (eqv : K → K → Bool) (x : Nat → Nat → K)
    (policy : List Nat → Nat → Box K → Nat) (nf : Nat) (vmax vlowest : K) (first last : Nat)
    (arr : List Nat) : List Nat → Prop
  | refl : Rebuilt eqv x policy nf vmax vlowest first last arr arr
  | again {arr1 arr2 : List Nat} {bucket depth : Nat} {s : Shape K} :
    Rebuilt eqv x policy nf vmax vlowest first last arr arr1 →
    construct eqv x policy bucket depth nf vmax vlowest first last arr1 = some (arr2, s) →
    Rebuilt eqv x policy nf vmax vlowest first last arr arr2
  | outside {arr1 arr2 : List Nat} : Rebuilt eqv x policy nf vmax vlowest first last arr arr1 →
    arr2.length = arr1.length → (arr2.drop first).take (last - first) = (arr1.drop first).take (last - first) →
    Rebuilt eqv x policy nf vmax vlowest first last arr arr2

section Again

variable {K : Type} [LinearOrder K]

/-- Through its iterators the tree still has its pivots, axes and boxes, and every leaf has its samples. -/
theorem rebuilt_view {eqv : K → K → Bool} (hg : GoodEq eqv) {x : Nat → Nat → K}
    {policy : List Nat → Nat → Box K → Nat} {bucket depth nf : Nat}
    (hpol : ∀ idx d box, policy idx d box < nf)
    (hperm : ∀ idx idx' d box, idx.Perm idx' → policy idx d box = policy idx' d box)
    {vmax vlowest : K} {first last : Nat} {arr arr' arr'' : List Nat} {s : Shape K}
    (hnd : ((arr.drop first).take (last - first)).Nodup)
    (hap : ∀ axis, ∀ a ∈ (arr.drop first).take (last - first), ∀ b ∈ (arr.drop first).take (last - first),
      a ≠ b → eqv (x a axis) (x b axis) = false)
    (h : construct eqv x policy bucket depth nf vmax vlowest first last arr = some (arr', s))
    (h2 : Rebuilt eqv x policy nf vmax vlowest first last arr' arr'') :
    ∃ t : KDTree.Tree K, s.view arr'' = some t ∧
      t.indices.Perm ((arr.drop first).take (last - first)) ∧ t.AxesLt nf ∧ t.Ordered x := by
  obtain ⟨a1, a2, range, t, e, hA, rfl⟩ := construct_inv h
  obtain ⟨i1, t1, g1, g2, g3, g4, g5, g6⟩ := build_keeps hg (x := x) (bucketSize := bucket)
    (maxDepth := depth) hpol hperm (((arr.drop first).take (last - first)).length + 1)
    ((arr.drop first).take (last - first)) 0
    (tightBound x nf vmax vlowest ((arr.drop first).take (last - first))) (by omega) (tightBound_length ..)
    hnd hap
  have m1 := make_of_build g1
  rw [e] at m1
  simp only [Option.some.injEq, Prod.mk.injEq] at m1
  obtain ⟨rfl, rfl⟩ := m1
  have hl : range.length = last - first := by rw [g2.length_eq]; simp; omega
  have hkey : last ≤ arr''.length ∧ ∃ t', t.Same t' ∧ t'.indices = (arr''.drop first).take (last - first) := by
    clear h
    induction h2 with
    | refl =>
      subst hA
      refine ⟨by simp [hl]; omega, t, Tree.Same.refl t, ?_⟩
      rw [g3, List.append_assoc, List.drop_left' (by simp; omega), List.take_left' hl]
    | @again w1 w2 bk dp s2 h1 hc ih =>
      obtain ⟨hlen, t', hs, hi⟩ := ih
      obtain ⟨b1, b2, range2, t2, e2, hB, _⟩ := construct_inv hc
      obtain ⟨i2, tt2, t'', k1, k2, k3⟩ := g6 bk dp (((w1.drop first).take (last - first)).length + 1) t' hs
        (Nat.zero_le _) (by rw [hi]; omega)
      rw [hi, ← tightBound_perm x nf vmax vlowest
        (show ((w1.drop first).take (last - first)).Perm _ from hi ▸ hs.perm.symm.trans (g3 ▸ g2))] at k1
      have m2 := make_of_build k1
      rw [e2] at m2
      simp only [Option.some.injEq, Prod.mk.injEq] at m2
      obtain ⟨rfl, _⟩ := m2
      have hl2 : range2.length = last - first := by
        rw [← k3, k2.perm.symm.length_eq, g3, hl]
      subst hB
      refine ⟨by simp [hl2]; omega, t'', k2, ?_⟩
      rw [k3, List.append_assoc, List.drop_left' (by simp; omega), List.take_left' hl2]
    | outside h1 hlen2 hsame ih =>
      obtain ⟨hlen, t', hs, hi⟩ := ih
      exact ⟨by omega, t', hs, by rw [hi, hsame]⟩
  obtain ⟨hlen, t', hs, hi⟩ := hkey
  refine ⟨t', ?_, hs.perm.symm.trans (g3 ▸ g2), hs.axesLt g4, hs.splitBy g5⟩
  have := view_self t' (arr''.take first) (arr''.drop last)
  rwa [hi, ← split_range a1 hlen, show (arr''.take first).length = first by simp; omega, ← hs.shape] at this

/-- k-NN in a rebuilt array, for any type of distance. -/
theorem rebuilt_knn {D : Type} [LinearOrder D] {eqv : K → K → Bool} (hg : GoodEq eqv) {nf : Nat}
    {x : Nat → Nat → K} {q : Nat → K} {gap : K → K → D} {dist : Nat → D} (hgap : GapSound nf x q gap dist)
    {policy : List Nat → Nat → Box K → Nat} {bucket depth : Nat}
    (hpol : ∀ idx d box, policy idx d box < nf)
    (hperm : ∀ idx idx' d box, idx.Perm idx' → policy idx d box = policy idx' d box)
    {vmax vlowest : K} {inf : D} {first last : Nat} {arr arr' arr'' : List Nat} {s : Shape K}
    (hnd : ((arr.drop first).take (last - first)).Nodup)
    (hap : ∀ axis, ∀ a ∈ (arr.drop first).take (last - first), ∀ b ∈ (arr.drop first).take (last - first),
      a ≠ b → eqv (x a axis) (x b axis) = false)
    (h : construct eqv x policy bucket depth nf vmax vlowest first last arr = some (arr', s))
    (h2 : Rebuilt eqv x policy nf vmax vlowest first last arr' arr'')
    (k : Nat) (hk : 1 ≤ k) (hk2 : k < 2 ^ 64) :
    ∃ b, searchShared x q (staticOps x q gap (candAll dist)) arr'' s (Buffer.mk inf k) = some b ∧
      b.indices.length = b.distances.length ∧
      IsKNearest k (b.indices.zip b.distances)
        (((arr.drop first).take (last - first)).map (fun i => (i, dist i))) := by
  obtain ⟨t, hv, hi, ha, ho⟩ := rebuilt_view hg hpol hperm hnd hap h h2
  have hc : ∀ i d, candAll dist i = some d → d = dist i := fun i d h => by
    simp [candAll] at h; exact h.symm
  obtain ⟨b, kept, es, _, h1, h2, ⟨rest, hr1, hr2⟩, hl, _⟩ :=
    search_result (sim_static x q gap (candAll dist)) (fun _ => rfl)
      (pruneOk_exact hgap hc) hk2
      (Or.inl (by omega)) t (splitBy_axes ho ha) (fun _ _ => trivial) (Buffer.mk inf k) trivial rfl
  have hcp : (cands (candAll dist) t.indices).Perm
      (cands (candAll dist) ((arr.drop first).take (last - first))) := cands_perm hi
  simp only [id] at h1 h2
  refine ⟨b, by simp [searchShared, hv, es], by rw [h1, h2]; simp, ?_⟩
  rw [h1, h2, zip_map_fst_snd]
  rw [cands_all] at hr1 hl hcp
  rw [cands_all] at hcp
  refine ⟨⟨rest, hr1.trans hcp, ?_⟩, by rw [hl, hcp.length_eq, capEff_of_pos hk]⟩
  intro a ha b hb
  obtain ⟨d', h, h'⟩ := hr2 a ha b hb
  rw [h]; exact h'

end Again

/-- **C100**, k-NN on signed integral data: samples that differ on every axis, any number of later trees
over the same range with the same axis policy and any bucket sizes and depths, any changes elsewhere in the
array.  The searches of the first tree return the `k` nearest samples.  What is missing: other axes, and
equal coordinates, for which it is false (see the counterexamples). -/
theorem C100_knn_signed_partial (nf : Nat) (x : Nat → Nat → ℤ) (q : Nat → ℤ) (dist : Nat → ℤ)
    (hd : ∀ i, manhattan (row nf (x i)) (row nf q) = some (dist i))
    (policy : List Nat → Nat → Box ℤ → Nat) (bucket depth : Nat)
    (hpol : ∀ idx d box, policy idx d box < nf)
    (hperm : ∀ idx idx' d box, idx.Perm idx' → policy idx d box = policy idx' d box)
    (vmax vlowest inf : ℤ) (first last : Nat) (arr arr' arr'' : List Nat) (s : Shape ℤ)
    (hnd : ((arr.drop first).take (last - first)).Nodup)
    (hap : ∀ axis, ∀ a ∈ (arr.drop first).take (last - first), ∀ b ∈ (arr.drop first).take (last - first),
      a ≠ b → x a axis ≠ x b axis)
    (h : construct eqExact x policy bucket depth nf vmax vlowest first last arr = some (arr', s))
    (h2 : Rebuilt eqExact x policy nf vmax vlowest first last arr' arr'')
    (k : Nat) (hk : 1 ≤ k) (hk2 : k < 2 ^ 64) :
    ∃ b, searchShared x q (staticOps x q (fun v w => |v - w|) (candAll dist)) arr'' s (Buffer.mk inf k) =
        some b ∧
      b.indices.length = b.distances.length ∧
      IsKNearest k (b.indices.zip b.distances)
        (((arr.drop first).take (last - first)).map (fun i => (i, dist i))) :=
  rebuilt_knn goodEq_exact (gapSound_manhattan hd) hpol hperm hnd
    (fun axis a ha b hb hab => by simpa [eqExact] using hap axis a ha b hb hab) h h2 k hk hk2

theorem gapSound_euclidean {nf : Nat} {x : Nat → Nat → ℝ} {q : Nat → ℝ} {dist : Nat → ℝ}
    (hd : ∀ i, euclidean (row nf (x i)) (row nf q) = some (dist i)) :
    GapSound nf x q (fun v w => |v - w|) dist := by
  intro a ha i v hv
  have h1 := hd i
  rw [euclidean_eq (by simp [row])] at h1
  have h2 := abs_le_euclidean (row_get (v := x i) ha) (row_get (v := q) ha)
  rw [Option.some.inj h1] at h2
  refine le_trans ?_ h2
  dsimp only
  rcases hv with ⟨h3, h4⟩ | ⟨h3, h4⟩
  · rw [abs_of_nonneg (by linarith), abs_of_nonneg (by linarith)]; linarith
  · rw [abs_of_nonpos (by linarith), abs_of_nonpos (by linarith)]; linarith

/-- **C100**, the same on floating data, for samples that differ by more than `eps` on every axis; the
answer is then exact. -/
theorem C100_knn_float_partial (eps : ℝ) (he : 0 ≤ eps) (nf : Nat) (x : Nat → Nat → ℝ) (q : Nat → ℝ)
    (dist : Nat → ℝ) (hd : ∀ i, euclidean (row nf (x i)) (row nf q) = some (dist i))
    (policy : List Nat → Nat → Box ℝ → Nat) (bucket depth : Nat)
    (hpol : ∀ idx d box, policy idx d box < nf)
    (hperm : ∀ idx idx' d box, idx.Perm idx' → policy idx d box = policy idx' d box)
    (vmax vlowest inf : ℝ) (first last : Nat) (arr arr' arr'' : List Nat) (s : Shape ℝ)
    (hnd : ((arr.drop first).take (last - first)).Nodup)
    (hap : ∀ axis, ∀ a ∈ (arr.drop first).take (last - first), ∀ b ∈ (arr.drop first).take (last - first),
      a ≠ b → eps < |x b axis - x a axis|)
    (h : construct (eqEps eps) x policy bucket depth nf vmax vlowest first last arr = some (arr', s))
    (h2 : Rebuilt (eqEps eps) x policy nf vmax vlowest first last arr' arr'')
    (k : Nat) (hk : 1 ≤ k) (hk2 : k < 2 ^ 64) :
    ∃ b, searchShared x q (staticOps x q (fun v w => |v - w|) (candAll dist)) arr'' s (Buffer.mk inf k) =
        some b ∧
      b.indices.length = b.distances.length ∧
      IsKNearest k (b.indices.zip b.distances)
        (((arr.drop first).take (last - first)).map (fun i => (i, dist i))) :=
  rebuilt_knn (goodEq_eps he) (gapSound_euclidean hd) hpol hperm hnd
    (fun axis a ha b hb hab => by simpa [eqEps] using hap axis a ha b hb hab) h h2 k hk hk2

/-! ### counterexamples -/

/-- Rows of integers. -/
def rowsX (l : List (List ℤ)) : Nat → Nat → ℤ := fun i a => (l.getD i []).getD a 0

/-- The nearest sample found by a tree with `bucket`, over the whole array, before and after the
construction of a second tree over the same array. -/
def beforeAfter (data : List (List ℤ)) (q : List ℤ) (policy policy2 : List Nat → Nat → Box ℤ → Nat)
    (bucket bucket2 : Nat) : Option (List Nat × List Nat) := do
  let n := data.length
  let x := rowsX data
  let qf := fun a => q.getD a 0
  let dist := fun i => |x i 0 - qf 0| + |x i 1 - qf 1|
  let (arr', s) ← construct eqExact x policy bucket 100 2 1000 (-1000) 0 n (List.range n)
  let (arr'', _) ← construct eqExact x policy2 bucket2 100 2 1000 (-1000) 0 n arr'
  let b ← searchShared x qf (staticOps x qf (fun v w => |v - w|) (candAll dist)) arr' s (Buffer.mk 0 1)
  let b' ← searchShared x qf (staticOps x qf (fun v w => |v - w|) (candAll dist)) arr'' s (Buffer.mk 0 1)
  some (b.indices, b'.indices)

/-- A second tree that cuts along another axis: the first tree finds sample 1 at distance 0, and after
the construction of the second it returns sample 2 at distance 1. -/
theorem C100_axis_counterexample :
    beforeAfter [[2, 1], [0, 1], [0, 0]] [0, 1] (fun _ _ _ => 0) (fun _ _ _ => 1) 1 1 = some ([1], [2]) := by
  decide +kernel

/-- A second tree with the same options, samples with equal coordinates: the nearest sample 1 is lost. -/
theorem C100_ties_counterexample :
    beforeAfter [[1, 0], [2, 0], [2, 2], [0, 0], [2, 1], [1, 0], [2, 1], [0, 0], [1, 2]] [2, 0]
      (fun _ d _ => d % 2) (fun _ d _ => d % 2) 1 1 = some ([1], [5]) := by
  decide +kernel

/-! ### concrete cases -/

/-- The hypotheses of `C100_knn_signed_partial` are met with four samples, buckets 2 and 1: the first tree
still finds its nearest sample. -/
example : beforeAfter [[5, 1], [3, 9], [8, 4], [1, 7]] [4, 8] (fun _ d _ => d % 2) (fun _ d _ => d % 2) 2 1 =
    some ([1], [1]) := by decide +kernel

/-- Two trees over the halves of one array (`C100_two`). -/
example : ((construct eqExact (rowsX [[5, 1], [3, 9], [8, 4], [1, 7], [0, 2], [9, 6]]) (fun _ d _ => d % 2) 1 100 2
      1000 (-1000) 0 3 (List.range 6)).bind (fun r =>
    (construct eqExact (rowsX [[5, 1], [3, 9], [8, 4], [1, 7], [0, 2], [9, 6]]) (fun _ d _ => d % 2) 1 100 2
      1000 (-1000) 3 6 r.1).map (fun r2 => (r.1, r2.1, (r.2.view r.1 == r.2.view r2.1))))) =
    some ([1, 0, 2, 3, 4, 5], [1, 0, 2, 4, 3, 5], true) := by decide +kernel

end Verif.Search
