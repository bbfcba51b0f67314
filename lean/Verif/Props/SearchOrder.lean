import Verif.Props.Rounding
import Mathlib.Data.List.Sort

/-
Property C83: the distances found by a nearest-neighbour search do not depend on the tree.

The sorted list of the returned distances is the beginning of the sorted list of all distances.
-/

set_option linter.unusedSectionVars false

namespace Verif.Search

open Verif.Buffer Verif.KDTree Verif.Distances Verif.Sorting

section Generic

variable {D : Type} [LinearOrder D]

/-- Specification: the list in increasing order. -/
def increasing (l : List D) : List D := l.insertionSort (· ≤ ·)

theorem increasing_perm (l : List D) : (increasing l).Perm l := List.perm_insertionSort _ _

theorem increasing_pairwise (l : List D) : (increasing l).Pairwise (· ≤ ·) :=
  List.pairwise_insertionSort _ _

theorem increasing_congr {l m : List D} (h : l.Perm m) : increasing l = increasing m :=
  ((increasing_perm l).trans (h.trans (increasing_perm m).symm)).eq_of_pairwise'
    (increasing_pairwise l) (increasing_pairwise m)

theorem increasing_append {l m : List D} (h : ∀ a ∈ l, ∀ b ∈ m, a ≤ b) :
    increasing (l ++ m) = increasing l ++ increasing m := by
  refine ((increasing_perm _).trans
    ((increasing_perm l).append (increasing_perm m)).symm).eq_of_pairwise'
    (increasing_pairwise _) (List.pairwise_append.2 ⟨increasing_pairwise l, increasing_pairwise m, ?_⟩)
  intro a ha b hb
  exact h a ((increasing_perm l).mem_iff.1 ha) b ((increasing_perm m).mem_iff.1 hb)

theorem increasing_length (l : List D) : (increasing l).length = l.length :=
  (increasing_perm l).length_eq

/-- The distances of `k` nearest candidates are the `k` smallest distances. -/
theorem kNearest_increasing {k : Nat} {kept all : List (Nat × D)} (h : IsKNearest k kept all) :
    increasing (kept.map Prod.snd) = (increasing (all.map Prod.snd)).take k := by
  obtain ⟨⟨rest, hp, hle⟩, hl⟩ := h
  have h1 := increasing_congr (hp.map Prod.snd)
  rw [List.map_append, increasing_append (by
    intro a ha b hb
    obtain ⟨p, hp', rfl⟩ := List.mem_map.1 ha
    obtain ⟨q, hq', rfl⟩ := List.mem_map.1 hb
    exact hle p hp' q hq')] at h1
  have hlen := hp.length_eq
  rw [List.length_append] at hlen
  rw [← h1]
  rcases le_total k all.length with hk | hk
  · rw [min_eq_left hk] at hl
    rw [List.take_left' (by rw [increasing_length, List.length_map, hl])]
  · rw [min_eq_right hk] at hl
    have hr : rest = [] := List.length_eq_zero_iff.1 (by omega)
    subst hr
    rw [List.take_of_length_le]
    · simp [increasing]
    · rw [List.length_append, increasing_length, increasing_length]
      simp only [List.length_map, List.length_nil]
      omega

theorem kNearest_distances {k : Nat} {kept kept' all all' : List (Nat × D)}
    (h : IsKNearest k kept all) (h' : IsKNearest k kept' all') (hp : all.Perm all') :
    (kept.map Prod.snd).Perm (kept'.map Prod.snd) := by
  have h1 := kNearest_increasing h
  rw [increasing_congr (hp.map Prod.snd), ← kNearest_increasing h'] at h1
  exact (increasing_perm _).symm.trans (h1 ▸ increasing_perm _)

theorem kNearest_nodup {k : Nat} {kept all : List (Nat × D)} (h : IsKNearest k kept all)
    (hn : (all.map Prod.snd).Nodup) : (kept.map Prod.snd).Nodup ∧ ∀ c ∈ kept, c ∈ all := by
  obtain ⟨⟨rest, hp, -⟩, -⟩ := h
  have := (hp.map Prod.snd).nodup_iff.2 hn
  rw [List.map_append] at this
  exact ⟨this.of_append_left, fun c hc => hp.mem_iff.1 (List.mem_append_left _ hc)⟩

/-- Without equal distances, the samples themselves are determined. -/
theorem kNearest_unique {k : Nat} {kept kept' all all' : List (Nat × D)}
    (h : IsKNearest k kept all) (h' : IsKNearest k kept' all') (hp : all.Perm all')
    (hn : (all.map Prod.snd).Nodup) : kept.Perm kept' := by
  have hn' := (hp.map Prod.snd).nodup_iff.1 hn
  have hd := kNearest_distances h h' hp
  obtain ⟨n1, m1⟩ := kNearest_nodup h hn
  obtain ⟨n2, m2⟩ := kNearest_nodup h' hn'
  refine (List.perm_ext_iff_of_nodup n1.of_map n2.of_map).2 ?_
  have hinj := List.inj_on_of_nodup_map hn
  intro c
  constructor
  · intro hc
    obtain ⟨c', hc', he⟩ := List.mem_map.1 (hd.mem_iff.1 (List.mem_map_of_mem hc))
    rwa [hinj (m1 c hc) (hp.mem_iff.2 (m2 c' hc')) he.symm]
  · intro hc
    obtain ⟨c', hc', he⟩ := List.mem_map.1 (hd.mem_iff.2 (List.mem_map_of_mem hc))
    rwa [hinj (hp.mem_iff.2 (m2 c hc)) (m1 c' hc') he.symm]

/-- The value at a position of a sorted list is at most `v` exactly when more values than that
position are at most `v`. -/
theorem sorted_get_le_iff {l : List D} (hs : l.Pairwise (· ≤ ·)) {i : Nat} (hi : i < l.length)
    (v : D) : l[i] ≤ v ↔ i < l.countP (fun a => decide (a ≤ v)) := by
  induction l generalizing i with
  | nil => simp at hi
  | cons a l ih =>
    rw [List.pairwise_cons] at hs
    cases i with
    | zero =>
      simp only [List.getElem_cons_zero, List.countP_cons, decide_eq_true_eq]
      constructor
      · intro h; simp [h]
      · intro h
        by_contra hc
        have hz : l.countP (fun a => decide (a ≤ v)) = 0 := by
          rw [List.countP_eq_zero]
          intro b hb
          simp only [decide_eq_true_eq, not_le]
          exact (not_le.1 hc).trans_le (hs.1 b hb)
        simp [hz, hc] at h
    | succ i =>
      simp only [List.length_cons, Nat.add_lt_add_iff_right] at hi
      simp only [List.getElem_cons_succ, List.countP_cons, decide_eq_true_eq]
      rw [ih hs.2 hi]
      by_cases hav : a ≤ v
      · simp [hav]
      · have hz : l.countP (fun a => decide (a ≤ v)) = 0 := by
          rw [List.countP_eq_zero]
          intro b hb
          simp only [decide_eq_true_eq, not_le]
          exact (not_le.1 hav).trans_le (hs.1 b hb)
        simp [hav, hz]

theorem subperm_map {α β : Type} (f : α → β) {l m : List α} (h : l.Subperm m) :
    (l.map f).Subperm (m.map f) := by
  obtain ⟨l', hp, hs⟩ := h
  exact ⟨l'.map f, hp.map f, hs.map f⟩

/-- A value of the sorted smaller collection is at least the one at the same position of the sorted
larger collection. -/
theorem increasing_subperm {l m : List D} (h : l.Subperm m) {i : Nat} {a b : D}
    (ha : (increasing l)[i]? = some a) (hb : (increasing m)[i]? = some b) : b ≤ a := by
  obtain ⟨h1, rfl⟩ := List.getElem?_eq_some_iff.1 ha
  obtain ⟨h2, rfl⟩ := List.getElem?_eq_some_iff.1 hb
  rw [sorted_get_le_iff (increasing_pairwise m) h2]
  have := (sorted_get_le_iff (increasing_pairwise l) h1 _).1 (le_refl _)
  rw [(increasing_perm l).countP_eq] at this
  rw [(increasing_perm m).countP_eq]
  exact this.trans_le (h.countP_le _)

end Generic

/-- Nearest up to a slack: position by position, the sorted returned distances exceed the sorted
list of all distances by at most the slack. -/
theorem upTo_increasing {F : Type} [Field F] [LinearOrder F] [IsStrictOrderedRing F] {slack : F}
    {k : Nat} {kept all : List (Nat × F)} (h : IsKNearestUpTo slack k kept all)
    (hs : 0 ≤ slack) {i : Nat} {a : F} (ha : (increasing (kept.map Prod.snd))[i]? = some a) :
    ∃ b, (increasing (all.map Prod.snd))[i]? = some b ∧ b ≤ a ∧ a ≤ b + slack := by
  obtain ⟨⟨rest, hp, hle⟩, -⟩ := h
  have hlen := hp.length_eq
  rw [List.length_append] at hlen
  have hi : i < kept.length := by
    obtain ⟨h1, -⟩ := List.getElem?_eq_some_iff.1 ha
    rwa [increasing_length, List.length_map] at h1
  have hi2 : i < (increasing (all.map Prod.snd)).length := by
    rw [increasing_length, List.length_map]; omega
  have hb := List.getElem?_eq_getElem hi2
  refine ⟨_, hb, ?_, ?_⟩
  · refine increasing_subperm ?_ ha hb
    refine subperm_map Prod.snd ?_
    exact (List.sublist_append_left kept rest).subperm.trans hp.subperm
  · obtain ⟨h1, rfl⟩ := List.getElem?_eq_some_iff.1 ha
    rw [sorted_get_le_iff (increasing_pairwise _) h1, (increasing_perm _).countP_eq]
    by_contra hc
    rw [not_lt] at hc
    have hcount := (sorted_get_le_iff (increasing_pairwise (all.map Prod.snd)) hi2 _).1 (le_refl _)
    set v := (increasing (all.map Prod.snd))[i] with hv
    rw [(increasing_perm _).countP_eq, ← (hp.map Prod.snd).countP_eq, List.map_append,
      List.countP_append] at hcount
    -- all kept distances are at most `v + slack`, or some distance left out is at most `v`
    rcases Nat.eq_zero_or_pos ((rest.map Prod.snd).countP (fun a => decide (a ≤ v))) with hz | hpos
    · rw [hz, Nat.add_zero] at hcount
      refine absurd (hcount.trans_le (List.countP_mono_left ?_)) (not_lt.2 hc)
      intro x _ hx
      simp only [decide_eq_true_eq] at hx ⊢
      linarith
    · obtain ⟨b, hb', hbv⟩ := List.countP_pos_iff.1 hpos
      simp only [decide_eq_true_eq] at hbv
      obtain ⟨q, hq, rfl⟩ := List.mem_map.1 hb'
      have hall : (kept.map Prod.snd).countP (fun a => decide (a ≤ v + slack)) =
          (kept.map Prod.snd).length := by
        rw [List.countP_eq_length]
        intro x hx
        obtain ⟨c, hc', rfl⟩ := List.mem_map.1 hx
        simp only [decide_eq_true_eq]
        exact (hle c hc' q hq).trans (by linarith)
      rw [hall, List.length_map] at hc
      omega

theorem map_snd_zip {α β : Type} : ∀ (l : List α) (m : List β), l.length = m.length →
    (l.zip m).map Prod.snd = m := by
  intro l m h
  exact List.map_snd_zip h.ge

/-- **C83**, signed integral data.  Two trees on the same samples, given in any order and built with
any options and axis policies, give the same distances; these are the `k` smallest of all distances;
and without equal distances the samples returned are the same. -/
theorem C83_signed (nf : Nat) (x : Nat → Nat → ℤ) (q : Nat → ℤ) (dist : Nat → ℤ)
    (hd : ∀ i, manhattan (row nf (x i)) (row nf q) = some (dist i))
    (policy policy' : List Nat → Nat → Box ℤ → Nat) (bucketSize bucketSize' maxDepth maxDepth' : Nat)
    (hpol : ∀ idx d box, policy idx d box < nf) (hpol' : ∀ idx d box, policy' idx d box < nf)
    (vmax vlowest inf : ℤ) (idx idx' : List Nat) (hperm : idx.Perm idx')
    (k : Nat) (hk : 1 ≤ k) (hk2 : k < 2 ^ 64) :
    ∃ t t' b b', make eqExact x policy bucketSize maxDepth nf vmax vlowest idx = some t ∧
      make eqExact x policy' bucketSize' maxDepth' nf vmax vlowest idx' = some t' ∧
      search x q (staticOps x q (fun v w => |v - w|) (candAll dist)) t.2 (Buffer.mk inf k) = some b ∧
      search x q (staticOps x q (fun v w => |v - w|) (candAll dist)) t'.2 (Buffer.mk inf k) = some b' ∧
      b.distances.Perm b'.distances ∧
      increasing b.distances = (increasing (idx.map dist)).take k ∧
      ((idx.map dist).Nodup → (b.indices.zip b.distances).Perm (b'.indices.zip b'.distances)) := by
  obtain ⟨i1, t1, b1, e1, s1, l1, n1⟩ := C14_knn_signed nf x q dist hd policy bucketSize maxDepth hpol
    vmax vlowest inf idx k hk hk2
  obtain ⟨i2, t2, b2, e2, s2, l2, n2⟩ := C14_knn_signed nf x q dist hd policy' bucketSize' maxDepth'
    hpol' vmax vlowest inf idx' k hk hk2
  have hp := hperm.map (fun i => (i, dist i))
  refine ⟨(i1, t1), (i2, t2), b1, b2, e1, e2, s1, s2, ?_, ?_, ?_⟩
  · have := kNearest_distances n1 n2 hp
    rwa [map_snd_zip _ _ l1, map_snd_zip _ _ l2] at this
  · have := kNearest_increasing n1
    rw [map_snd_zip _ _ l1, List.map_map] at this
    exact this
  · intro hn
    refine kNearest_unique n1 n2 hp ?_
    rw [List.map_map]
    exact hn

/-- **C83**, signed integral data: asking for more neighbours keeps the distances already found and
only adds larger ones. -/
theorem C83_more_neighbours (nf : Nat) (x : Nat → Nat → ℤ) (q : Nat → ℤ) (dist : Nat → ℤ)
    (hd : ∀ i, manhattan (row nf (x i)) (row nf q) = some (dist i))
    (policy : List Nat → Nat → Box ℤ → Nat) (bucketSize maxDepth : Nat)
    (hpol : ∀ idx d box, policy idx d box < nf) (vmax vlowest inf : ℤ) (idx : List Nat)
    (k k' : Nat) (hk : 1 ≤ k) (hkk : k ≤ k') (hk2 : k' < 2 ^ 64) :
    ∃ t b b', make eqExact x policy bucketSize maxDepth nf vmax vlowest idx = some t ∧
      search x q (staticOps x q (fun v w => |v - w|) (candAll dist)) t.2 (Buffer.mk inf k) = some b ∧
      search x q (staticOps x q (fun v w => |v - w|) (candAll dist)) t.2 (Buffer.mk inf k') = some b' ∧
      increasing b.distances <+: increasing b'.distances := by
  obtain ⟨i1, t1, b1, e1, s1, l1, n1⟩ := C14_knn_signed nf x q dist hd policy bucketSize maxDepth hpol
    vmax vlowest inf idx k hk (by omega)
  obtain ⟨i2, t2, b2, e2, s2, l2, n2⟩ := C14_knn_signed nf x q dist hd policy bucketSize maxDepth
    hpol vmax vlowest inf idx k' (by omega) hk2
  rw [e1] at e2
  obtain ⟨rfl, rfl⟩ := Prod.mk.inj (Option.some.inj e2)
  refine ⟨(i1, t1), b1, b2, e1, s1, s2, ?_⟩
  have h1 := kNearest_increasing n1
  have h2 := kNearest_increasing n2
  rw [map_snd_zip _ _ l1] at h1
  rw [map_snd_zip _ _ l2] at h2
  rw [h1, h2]
  have := List.take_prefix k ((increasing
    (List.map Prod.snd (List.map (fun i => (i, dist i)) idx))).take k')
  rwa [List.take_take, min_eq_left hkk] at this

/-- **C83**, signed integral data: adding samples never increases the distance at a given rank. -/
theorem C83_more_samples (nf : Nat) (x : Nat → Nat → ℤ) (q : Nat → ℤ) (dist : Nat → ℤ)
    (hd : ∀ i, manhattan (row nf (x i)) (row nf q) = some (dist i))
    (policy policy' : List Nat → Nat → Box ℤ → Nat) (bucketSize bucketSize' maxDepth maxDepth' : Nat)
    (hpol : ∀ idx d box, policy idx d box < nf) (hpol' : ∀ idx d box, policy' idx d box < nf)
    (vmax vlowest inf : ℤ) (idx idx' : List Nat) (hsub : idx.Subperm idx')
    (k : Nat) (hk : 1 ≤ k) (hk2 : k < 2 ^ 64) :
    ∃ t t' b b', make eqExact x policy bucketSize maxDepth nf vmax vlowest idx = some t ∧
      make eqExact x policy' bucketSize' maxDepth' nf vmax vlowest idx' = some t' ∧
      search x q (staticOps x q (fun v w => |v - w|) (candAll dist)) t.2 (Buffer.mk inf k) = some b ∧
      search x q (staticOps x q (fun v w => |v - w|) (candAll dist)) t'.2 (Buffer.mk inf k) = some b' ∧
      ∀ (i : Nat) (a : ℤ), (increasing b.distances)[i]? = some a →
        ∃ a', (increasing b'.distances)[i]? = some a' ∧ a' ≤ a := by
  obtain ⟨i1, t1, b1, e1, s1, l1, n1⟩ := C14_knn_signed nf x q dist hd policy bucketSize maxDepth hpol
    vmax vlowest inf idx k hk hk2
  obtain ⟨i2, t2, b2, e2, s2, l2, n2⟩ := C14_knn_signed nf x q dist hd policy' bucketSize' maxDepth'
    hpol' vmax vlowest inf idx' k hk hk2
  refine ⟨(i1, t1), (i2, t2), b1, b2, e1, e2, s1, s2, ?_⟩
  have h1 := kNearest_increasing n1
  have h2 := kNearest_increasing n2
  rw [map_snd_zip _ _ l1, List.map_map] at h1
  rw [map_snd_zip _ _ l2, List.map_map] at h2
  intro i a ha
  rw [h1, List.getElem?_take] at ha
  rw [h2, List.getElem?_take]
  split at ha
  · rename_i hik
    rw [if_pos hik]
    obtain ⟨hlt, -⟩ := List.getElem?_eq_some_iff.1 ha
    rw [increasing_length, List.length_map] at hlt
    have hlt' : i < (increasing (idx'.map (Prod.snd ∘ fun i => (i, dist i)))).length := by
      rw [increasing_length, List.length_map]
      exact hlt.trans_le hsub.length_le
    exact ⟨_, List.getElem?_eq_getElem hlt',
      increasing_subperm (subperm_map _ hsub) ha (List.getElem?_eq_getElem hlt')⟩
  · cases ha

/-- **C83**, narrow unsigned data. -/
theorem C83_unsigned_narrow (nf : Nat) (x : Nat → Nat → Nat) (q : Nat → Nat) (dist : Nat → Nat)
    (hd : ∀ i, unsignedManhattan (row nf (x i)) (row nf q) = some (dist i))
    (policy policy' : List Nat → Nat → Box Nat → Nat) (bucketSize bucketSize' maxDepth maxDepth' : Nat)
    (hpol : ∀ idx d box, policy idx d box < nf) (hpol' : ∀ idx d box, policy' idx d box < nf)
    (vmax vlowest inf : Nat) (idx idx' : List Nat) (hperm : idx.Perm idx')
    (k : Nat) (hk : 1 ≤ k) (hk2 : k < 2 ^ 64) :
    ∃ t t' b b', make eqExact x policy bucketSize maxDepth nf vmax vlowest idx = some t ∧
      make eqExact x policy' bucketSize' maxDepth' nf vmax vlowest idx' = some t' ∧
      search x q (staticOps x q (fun v w => ((v : ℤ) - w).natAbs) (candAll dist)) t.2
        (Buffer.mk inf k) = some b ∧
      search x q (staticOps x q (fun v w => ((v : ℤ) - w).natAbs) (candAll dist)) t'.2
        (Buffer.mk inf k) = some b' ∧
      b.distances.Perm b'.distances ∧
      increasing b.distances = (increasing (idx.map dist)).take k ∧
      ((idx.map dist).Nodup → (b.indices.zip b.distances).Perm (b'.indices.zip b'.distances)) := by
  obtain ⟨i1, t1, b1, e1, s1, l1, n1⟩ := C14_knn_unsigned_narrow nf x q dist hd policy bucketSize
    maxDepth hpol vmax vlowest inf idx k hk hk2
  obtain ⟨i2, t2, b2, e2, s2, l2, n2⟩ := C14_knn_unsigned_narrow nf x q dist hd policy' bucketSize'
    maxDepth' hpol' vmax vlowest inf idx' k hk hk2
  have hp := hperm.map (fun i => (i, dist i))
  refine ⟨(i1, t1), (i2, t2), b1, b2, e1, e2, s1, s2, ?_, ?_, ?_⟩
  · have := kNearest_distances n1 n2 hp
    rwa [map_snd_zip _ _ l1, map_snd_zip _ _ l2] at this
  · have := kNearest_increasing n1
    rw [map_snd_zip _ _ l1, List.map_map] at this
    exact this
  · intro hn
    refine kNearest_unique n1 n2 hp ?_
    rw [List.map_map]
    exact hn

/-- **C83** on floating data: at every rank, the distances found with two trees differ by at most
`2 * eps`, and exceed the true distance of that rank by at most `2 * eps`. -/
theorem C83_float (eps : ℝ) (he : 0 ≤ eps) (nf : Nat) (x : Nat → Nat → ℝ) (q : Nat → ℝ)
    (dist : Nat → ℝ) (hd : ∀ i, euclidean (row nf (x i)) (row nf q) = some (dist i))
    (policy policy' : List Nat → Nat → Box ℝ → Nat) (bucketSize bucketSize' maxDepth maxDepth' : Nat)
    (hpol : ∀ idx d box, policy idx d box < nf) (hpol' : ∀ idx d box, policy' idx d box < nf)
    (vmax vlowest inf : ℝ) (idx idx' : List Nat) (hperm : idx.Perm idx')
    (k : Nat) (hk : 1 ≤ k) (hk2 : k < 2 ^ 64) :
    ∃ t t' b b', make (eqEps eps) x policy bucketSize maxDepth nf vmax vlowest idx = some t ∧
      make (eqEps eps) x policy' bucketSize' maxDepth' nf vmax vlowest idx' = some t' ∧
      search x q (staticOps x q (fun v w => |v - w|) (candAll dist)) t.2 (Buffer.mk inf k) = some b ∧
      search x q (staticOps x q (fun v w => |v - w|) (candAll dist)) t'.2 (Buffer.mk inf k) = some b' ∧
      b.distances.length = min k idx.length ∧ b'.distances.length = min k idx.length ∧
      ∀ (i : Nat) (a a' : ℝ), (increasing b.distances)[i]? = some a →
        (increasing b'.distances)[i]? = some a' → |a - a'| ≤ 2 * eps ∧
          ∃ v, (increasing (idx.map dist))[i]? = some v ∧ v ≤ a ∧ a ≤ v + 2 * eps := by
  obtain ⟨i1, t1, b1, e1, s1, l1, n1⟩ := C14_knn_float eps he nf x q dist hd policy bucketSize maxDepth
    hpol vmax vlowest inf idx k hk hk2
  obtain ⟨i2, t2, b2, e2, s2, l2, n2⟩ := C14_knn_float eps he nf x q dist hd policy' bucketSize'
    maxDepth' hpol' vmax vlowest inf idx' k hk hk2
  refine ⟨(i1, t1), (i2, t2), b1, b2, e1, e2, s1, s2, ?_, ?_, ?_⟩
  · have := n1.2
    rw [List.length_zip, l1, min_self, List.length_map] at this
    exact this
  · have := n2.2
    rw [List.length_zip, l2, min_self, List.length_map] at this
    rw [this, hperm.length_eq]
  · intro i a a' ha ha'
    rw [← map_snd_zip _ _ l1] at ha
    rw [← map_snd_zip _ _ l2] at ha'
    obtain ⟨v, hv, h1, h2⟩ := upTo_increasing n1 (by linarith) ha
    obtain ⟨v', hv', h1', h2'⟩ := upTo_increasing n2 (by linarith) ha'
    rw [List.map_map] at hv hv'
    have hc := increasing_congr (hperm.map dist)
    have hvv : v = v' := by
      have e : (increasing (idx.map dist))[i]? = some v := hv
      have e' : (increasing (idx'.map dist))[i]? = some v' := hv'
      rw [hc, e'] at e
      exact (Option.some.inj e).symm
    subst hvv
    exact ⟨abs_le.2 ⟨by linarith, by linarith⟩, v, hv, h1, h2⟩

/-- **C83** under floating-point rounding, for data whose coordinates on each axis are equal or well
separated: the computed distances found do not depend on the tree. -/
theorem C83_rounded {p : Nat} (R : Rounding.Rounding p) (hp : 1 ≤ p) (eps : ℝ) (he : 0 ≤ eps) (nf : Nat)
    (x : Nat → Nat → ℝ) (q : Nat → ℝ) (o : Nat → Rounding.Order) (ho : ∀ i, (o i).Sums nf)
    (hsep : ∀ a i j, x i a = x j a ∨ eps < |R.rnd (x j a - x i a)|)
    (policy policy' : List Nat → Nat → Box ℝ → Nat) (bucketSize bucketSize' maxDepth maxDepth' : Nat)
    (hpol : ∀ idx d box, policy idx d box < nf) (hpol' : ∀ idx d box, policy' idx d box < nf)
    (vmax vlowest inf : ℝ) (idx idx' : List Nat) (hperm : idx.Perm idx')
    (k : Nat) (hk : 1 ≤ k) (hk2 : k < 2 ^ 64) :
    ∃ t t' b b', make (Rounding.eqR R eps) x policy bucketSize maxDepth nf vmax vlowest idx = some t ∧
      make (Rounding.eqR R eps) x policy' bucketSize' maxDepth' nf vmax vlowest idx' = some t' ∧
      search x q (staticOps x q (Rounding.gapR R) (candAll (fun i => Rounding.distR R (o i) (x i) q)))
        t.2 (Buffer.mk inf k) = some b ∧
      search x q (staticOps x q (Rounding.gapR R) (candAll (fun i => Rounding.distR R (o i) (x i) q)))
        t'.2 (Buffer.mk inf k) = some b' ∧
      b.distances.Perm b'.distances ∧
      increasing b.distances =
        (increasing (idx.map (fun i => Rounding.distR R (o i) (x i) q))).take k := by
  obtain ⟨i1, t1, b1, e1, s1, l1, n1⟩ := Rounding.C77_knn_separated R hp eps he nf x q o ho hsep policy
    bucketSize maxDepth hpol vmax vlowest inf idx k hk hk2
  obtain ⟨i2, t2, b2, e2, s2, l2, n2⟩ := Rounding.C77_knn_separated R hp eps he nf x q o ho hsep policy'
    bucketSize' maxDepth' hpol' vmax vlowest inf idx' k hk hk2
  refine ⟨(i1, t1), (i2, t2), b1, b2, e1, e2, s1, s2, ?_, ?_⟩
  · have := kNearest_distances n1 n2 (hperm.map _)
    rwa [map_snd_zip _ _ l1, map_snd_zip _ _ l2] at this
  · have := kNearest_increasing n1
    rw [map_snd_zip _ _ l1, List.map_map] at this
    exact this

/-- Samples `-2, 2, 5, 9` on a line. -/
def tieLine : Nat → Nat → ℤ := fun i _ => ([-2, 2, 5, 9] : List ℤ).getD i 0

/-- With equal distances the *samples* returned do depend on the tree: samples 0 and 1 are both at
distance 2 of the query 0, and bucket sizes 1 and 10 return different ones. -/
theorem C83_ties_counterexample :
    (((make eqExact tieLine (fun _ _ _ => 0) 1 10 1 1000 (-1000) [0, 1, 2, 3]).bind (fun r =>
      (search tieLine (fun _ => 0) (staticOps tieLine (fun _ => 0) (fun v w => |v - w|)
        (candAll (fun i => |tieLine i 0|))) r.2 (Buffer.mk 0 1)).map
          (fun b => (b.indices, b.distances)))),
     ((make eqExact tieLine (fun _ _ _ => 0) 10 10 1 1000 (-1000) [0, 1, 2, 3]).bind (fun r =>
      (search tieLine (fun _ => 0) (staticOps tieLine (fun _ => 0) (fun v w => |v - w|)
        (candAll (fun i => |tieLine i 0|))) r.2 (Buffer.mk 0 1)).map
          (fun b => (b.indices, b.distances))))) = (some ([1], [2]), some ([0], [2])) := by
  decide +kernel

/-- The hypotheses of `C83_signed` are met by this example. -/
example : ∀ i, manhattan (row 1 (tieLine i)) (row 1 (fun _ => 0)) = some |tieLine i 0| := by
  intro i
  simp [manhattan, row, transformReduce]

end Verif.Search
