import Verif.Model.HDBSCAN
import Verif.Props.Boruvka
import Verif.Props.Dendrogram

/-
Property C66: HDBSCAN from data to labels (hdbscan/HDBSCAN.hpp).
-/

namespace Verif.HDBSCAN

open Verif.KDTree Verif.Search Verif.Sorting Verif.Distances Verif.ClosestPair Verif.Graph
  Verif.Boruvka Verif.Dendrogram

/-- What `std::sort` with the comparison of the weights guarantees. -/
structure SortsByWeight {D : Type} [LE D] (sort : List (Edge D) → List (Edge D)) : Prop where
  perm : ∀ l, (sort l).Perm l
  sorted : ∀ l, (sort l).Pairwise (fun a b => a.2.2 ≤ b.2.2)

/-- A sort that qualifies. -/
example : SortsByWeight (fun l : List (Edge ℝ) => l.insertionSort (fun a b => a.2.2 ≤ b.2.2)) :=
  haveI : Std.Total (fun a b : Edge ℝ => a.2.2 ≤ b.2.2) := ⟨fun a b => le_total a.2.2 b.2.2⟩
  haveI : IsTrans (Edge ℝ) (fun a b => a.2.2 ≤ b.2.2) := ⟨fun _ _ _ h h' => h.trans h'⟩
  ⟨fun l => List.perm_insertionSort _ l, fun l => List.pairwise_insertionSort _ l⟩

theorem count_labels {n : Nat} {flat : List Nat} (hlen : flat.length = n) (v : Nat) (S : List Nat)
    (hS : S.Nodup) (h : ∀ i ∈ S, flat[i]? = some v) : S.length ≤ flat.count v := by
  have hflat : flat = (List.range n).map (fun i => flat.getD i 0) := by
    apply List.ext_getElem?
    intro i
    rw [List.getElem?_map]
    by_cases hi : i < n
    · rw [List.getElem?_range hi, Option.map_some, List.getD_eq_getElem?_getD]
      rw [List.getElem?_eq_getElem (by omega)]
      rfl
    · rw [List.getElem?_eq_none (by omega), List.getElem?_eq_none (by simpa using hi)]
      rfl
  have hsub : S ⊆ (List.range n).filter (fun i => flat.getD i 0 == v) := by
    intro i hi
    have h1 := h i hi
    rw [List.mem_filter, List.mem_range]
    constructor
    · rw [← hlen]; exact (List.getElem?_eq_some_iff.1 h1).1
    · rw [List.getD_eq_getElem?_getD, h1]; simp
  have h2 := (List.subperm_of_subset hS hsub).length_le
  have h3 : flat.count v = ((List.range n).filter (fun i => flat.getD i 0 == v)).length := by
    conv_lhs => rw [hflat]
    rw [List.count, List.countP_map, List.countP_eq_length_filter]
    rfl
  omega

/-- From a spanning tree to the labels. -/
theorem labels_of_tree {n : Nat} {mst : List (Edge ℝ)} (ht : IsSpanningTree n mst)
    (hw : ∀ e ∈ mst, 0 ≤ e.2.2) {sort : List (Edge ℝ) → List (Edge ℝ)} (hsort : SortsByWeight sort)
    (inv : ℝ → ℝ) (m : Nat) (allow ret : Bool) :
    ∃ root flat K, build (sort mst) = some root ∧
      extractFlat (condensedTree inv m allow ret root) = some flat ∧ flat.length = n ∧
      (∀ v ∈ flat, v ≤ K) ∧ ∀ v, 1 ≤ v → v ≤ K → min m n ≤ flat.count v := by
  obtain ⟨root, h1, hg, hn⟩ := build_good ht hw (hsort.perm mst) (hsort.sorted mst)
  obtain ⟨flat, cs, h2, h3, h4, h5, _, _⟩ := extract_spec inv m allow ret root hg n hn
  refine ⟨root, flat, cs.length, h1, h2, h4.length, ?_, ?_⟩
  · intro v hv
    obtain ⟨i, hi⟩ := List.mem_iff_getElem?.1 hv
    cases v with
    | zero => omega
    | succ j =>
      obtain ⟨c, hc, _⟩ := (h4.positive i j).1 hi
      exact (List.getElem?_eq_some_iff.1 hc).1
  · intro v hv1 hvK
    obtain ⟨j, rfl⟩ : ∃ j, v = j + 1 := ⟨v - 1, by omega⟩
    have hj : cs[j]? = some cs[j] := by simp
    have hc := h5 cs[j] (List.getElem_mem _)
    have hcl := C35_clusters inv m root hg
    have hnod : cs[j].samples.Nodup := STree.nodup_subtree hg.nodup _ (hcl.2.1 _ hc)
    refine le_trans ?_ (count_labels h4.length (j + 1) cs[j].samples hnod
      (fun i hi => (h4.positive i j).2 ⟨cs[j], hj, hi⟩))
    -- a cluster is the root or one side of a split
    have key : ∀ t : CTree ℝ, (∀ n l r, CTree.split n l r ∈ t.subtrees →
        m ≤ l.samples.length ∧ m ≤ r.samples.length) → ∀ c ∈ t.subtrees,
        c = t ∨ m ≤ c.samples.length := by
      intro t
      induction t with
      | leaf nd => intro _ c hc; left; simpa [CTree.subtrees] using hc
      | split nd l r ihl ihr =>
        intro hsp c hc
        have h0 := hsp nd l r (CTree.self_mem_subtrees _)
        have hl : ∀ n a b, CTree.split n a b ∈ l.subtrees →
            m ≤ a.samples.length ∧ m ≤ b.samples.length :=
          fun n a b h => hsp n a b (by simp [CTree.subtrees, h])
        have hr : ∀ n a b, CTree.split n a b ∈ r.subtrees →
            m ≤ a.samples.length ∧ m ≤ b.samples.length :=
          fun n a b h => hsp n a b (by simp [CTree.subtrees, h])
        simp only [CTree.subtrees, List.mem_cons, List.mem_append] at hc
        rcases hc with hc | hc | hc
        · exact Or.inl hc
        · right
          rcases ihl hl c hc with rfl | h
          · exact h0.1
          · exact h
        · right
          rcases ihr hr c hc with rfl | h
          · exact h0.2
          · exact h
    rcases key _ (fun n l r h => ⟨(hcl.2.2.1 n l r h).1, (hcl.2.2.1 n l r h).2.1⟩) _ hc with h | h
    · rw [h, CTree.samples, hcl.1]
      have : root.leaves.Perm (List.range n) := by
        rw [List.perm_ext_iff_of_nodup hg.nodup List.nodup_range]
        intro x; rw [hn, List.mem_range]
      rw [this.length_eq, List.length_range]
      exact min_le_right _ _
    · exact (min_le_left _ _).trans h

/-- **C66** (partial). For every floating point data set, policy, tree, order of iteration and option
set, `predict` ends after at most `log2 n` Borůvka rounds with one label per sample, 0 or one of
`1, ..., K`, and each of `1, ..., K` is carried by at least `min_cluster_size` samples — or by all of
them when there are fewer than `min_cluster_size`, which is where the property fails
(`C66_small_data_set`). -/
theorem C66_predict_partial (n : Nat) (hn : 0 < n) (eps : ℝ) (he : 0 ≤ eps) (nf : Nat)
    (x : Nat → Nat → ℝ) (dist : Nat → Nat → ℝ)
    (hd : ∀ q i, euclidean (row nf (x i)) (row nf (x q)) = some (dist q i))
    (policy : List Nat → Nat → Box ℝ → Nat) (bucketSize maxDepth : Nat)
    (hpol : ∀ idx d box, policy idx d box < nf) (vmax vlowest inf : ℝ)
    (hinf : ∀ q i, q < n → i < n → dist q i < inf)
    (ord : Orders ℝ) (hord : ord.Valid) (sort : List (Edge ℝ) → List (Edge ℝ))
    (hsort : SortsByWeight sort) (inv : ℝ → ℝ) (k : Nat) (hk : k < 2 ^ 64) (minSize : Nat)
    (allow ret : Bool) :
    ∃ idx' t flat K, make (eqEps eps) x policy bucketSize maxDepth nf vmax vlowest (List.range n) =
        some (idx', t) ∧
      (∀ fuel, Nat.log 2 n + 1 ≤ fuel →
        predict x (fun v w => |v - w|) dist inf t ord sort inv n k minSize allow ret fuel =
          some flat) ∧
      flat.length = n ∧ (∀ v ∈ flat, v ≤ K) ∧
      ∀ v, 1 ≤ v → v ≤ K → min minSize n ≤ flat.count v := by
  by_cases hk1 : 1 < k
  · obtain ⟨idx', t, T, h1, h2, h3, core, _, h4, _⟩ := C30_spanning n hn eps he nf x dist hd policy
      bucketSize maxDepth hpol vmax vlowest inf hinf ord hord k hk1 hk
    obtain ⟨root, flat, K, e1, e2, h5⟩ := labels_of_tree h3
      (fun e he' => by rw [h4 e he']; exact le_max_of_le_right (dist_nonneg hd _ _)) hsort inv minSize
      allow ret
    refine ⟨idx', t, flat, K, h1, ?_, h5⟩
    intro fuel hf
    simp only [predict, h2 fuel hf, Option.bind_eq_bind, Option.bind_some, e1, e2]
  · obtain ⟨idx', t, T, h1, h2, h3, h4, _⟩ := makeTree_float n hn eps he nf x dist hd policy bucketSize
      maxDepth hpol vmax vlowest inf hinf ord hord k (by omega) (Nat.log 2 n + 1) (by omega)
    obtain ⟨root, flat, K, e1, e2, h5⟩ := labels_of_tree h3
      (fun e he' => by rw [h4 e he']; exact dist_nonneg hd _ _) hsort inv minSize allow ret
    refine ⟨idx', t, flat, K, h1, ?_, h5⟩
    intro fuel hf
    have := makeTree_mono (x := x) (gap := fun v w => |v - w|) (dist := dist) (inf := inf) (t := t)
      (ord := ord) (n := n) (k := k) hf h2
    simp only [predict, this, Option.bind_eq_bind, Option.bind_some, e1, e2]

/-- **C66 is false of the code** for small data sets: three samples with the default
`min_cluster_size` 5 are all labelled 1, although no cluster has five samples. -/
theorem C66_small_data_set :
    (build [((0 : Nat), (1 : Nat), (1 : ℚ)), (1, 2, 2)]).bind (fun root =>
      extractFlat (condensedTree invQ 5 true false root)) = some [1, 1, 1] ∧
    IsSpanningTree 3 [((0 : Nat), (1 : Nat), (1 : ℚ)), (1, 2, 2)] := by
  refine ⟨by decide +kernel, ?_⟩
  refine isSpanningTree_of ?_ ?_ ?_
  · intro e he
    simp only [List.mem_cons, List.not_mem_nil, or_false] at he
    rcases he with rfl | rfl <;> simp
  · rfl
  · have h01 : Linked [((0 : Nat), (1 : Nat), (1 : ℚ)), (1, 2, 2)] 0 1 := .rel _ _ ⟨1, by simp⟩
    have h12 : Linked [((0 : Nat), (1 : Nat), (1 : ℚ)), (1, 2, 2)] 1 2 := .rel _ _ ⟨2, by simp⟩
    have h02 := h01.trans _ _ _ h12
    intro a b ha hb
    have ha' : a = 0 ∨ a = 1 ∨ a = 2 := by omega
    have hb' : b = 0 ∨ b = 1 ∨ b = 2 := by omega
    rcases ha' with rfl | rfl | rfl <;> rcases hb' with rfl | rfl | rfl
    · exact .refl _
    · exact h01
    · exact h02
    · exact h01.symm
    · exact .refl _
    · exact h12
    · exact h02.symm
    · exact h12.symm
    · exact .refl _

/-- C32 and C33 apply to that tree. -/
example : ∃ t, build [((0 : Nat), (1 : Nat), (1 : ℚ)), (1, 2, 2)] = some t ∧
    t.leaves.Perm (List.range 3) ∧ (∀ s ∈ t.subtrees, s.size = s.leaves.length) ∧ t.size = 3 :=
  C32_structure C66_small_data_set.2 (by simp) (.refl _) (by simp)

end Verif.HDBSCAN
