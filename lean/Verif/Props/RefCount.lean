import Verif.Lemmas.RefCountCondensed
import Verif.Props.HDBSCAN

/-
Property C104: are the nodes of a tree destroyed with the tree?

`Acc h hs` and `Pos h` say that the counts of the heap before the call are right: `hs` are the owning
pointers of the rest of the program.  The empty heap with `hs = []` is an instance.
-/

namespace Verif.RefCount

open Verif.Dendrogram Verif.Graph
open Verif.ClosestPair (Edge)

set_option linter.unusedSectionVars false

/-! ### k-d tree -/

theorem retain_many {h : Heap} {hs : List Nat} {a : Nat} (H : Acc h (a :: hs)) (Q : Pos h) : ∀ k,
    ∃ h', (List.replicate k a).foldlM retain h = some h' ∧ Acc h' (List.replicate (k + 1) a ++ hs) ∧
      Pos h' ∧ h'.length = h.length ∧ alive h' = alive h ∧
      (∀ x, (cell h' x).isSome = (cell h x).isSome) ∧ ∀ x, strongAt h' x = strongAt h x := by
  intro k
  induction k with
  | zero => exact ⟨h, rfl, by simpa using H, Q, rfl, rfl, fun _ => rfl, fun _ => rfl⟩
  | succ k ih =>
    obtain ⟨h1, e1, H1, Q1, l1, al1, i1, s1⟩ := ih
    obtain ⟨c, hc⟩ := H1.exists (a := a) (by simp [List.replicate_succ])
    obtain ⟨h2, e2, H2, l2, al2, i2, s2⟩ := H1.retain' (a := a) (by simp [hc])
    refine ⟨h2, ?_, ?_, Q1.retain e2, by omega, by omega, fun x => by rw [i2, i1], fun x => by rw [s2, s1]⟩
    · rw [List.replicate_succ', List.foldlM_append, e1]
      simp only [Option.bind_eq_bind, Option.bind_some, List.foldlM_cons, List.foldlM_nil, e2,
        Option.pure_def]
    · rw [List.replicate_succ]; exact H2

theorem release_many {hs : List Nat} {a : Nat} : ∀ (d : Nat) (h : Heap) (k : Nat), d < k →
    Acc h (List.replicate k a ++ hs) → Pos h →
    ∃ h', (List.replicate d a).foldlM release h = some h' ∧ Acc h' (List.replicate (k - d) a ++ hs) ∧
      Pos h' ∧ h'.length = h.length ∧ alive h' = alive h ∧
      (∀ x, (cell h' x).isSome = (cell h x).isSome) ∧ ∀ x, strongAt h' x = strongAt h x := by
  intro d
  induction d with
  | zero => intro h k _ H Q; exact ⟨h, rfl, H, Q, rfl, rfl, fun _ => rfl, fun _ => rfl⟩
  | succ d ih =>
    intro h k hk H Q
    obtain ⟨k, rfl⟩ : ∃ j, k = j + 1 := ⟨k - 1, by omega⟩
    rw [List.replicate_succ, List.cons_append] at H
    obtain ⟨h1, e1, H1, l1, al1, i1, s1⟩ := release_keep H (Or.inr (by
      rw [List.mem_append, List.mem_replicate]; exact Or.inl ⟨by omega, rfl⟩))
    obtain ⟨h2, e2, H2, Q2, l2, al2, i2, s2⟩ := ih h1 k (by omega) H1 (Q.release _ _ _ _ e1)
    refine ⟨h2, ?_, ?_, Q2, by omega, by omega, fun x => by rw [i2, i1], fun x => by rw [s2, s1]⟩
    · rw [List.replicate_succ, List.foldlM_cons, e1]; exact e2
    · rw [show k + 1 - (d + 1) = k - d by omega]; exact H2

/-- **C104, k-d tree.**  The nodes of a k-d tree live as long as one of its copies: they are all there
until the last copy is destroyed, and none is left afterwards. -/
theorem C104_kdtree {K : Type} (t : KDTree.Tree K) (h : Heap) (hs : List Nat) (H : Acc h hs) (Q : Pos h)
    (copies destroyed : Nat) (hd : destroyed ≤ copies + 1) :
    ∃ h1 h2, kdBuild h t = some (h1, h.length) ∧ alive h1 = alive h + kdNodes t ∧
      kdCopies h1 h.length copies destroyed = some h2 ∧
      alive h2 = if destroyed = copies + 1 then alive h else alive h + kdNodes t := by
  obtain ⟨h1, e1, H1, Q1, l1, al1, i1, s1, d1⟩ := kdBuild_spec t h hs H Q
  obtain ⟨h2, e2, H2, Q2, l2, al2, i2, s2⟩ := retain_many H1 Q1 copies
  by_cases hlast : destroyed = copies + 1
  · subst hlast
    obtain ⟨h3, e3, H3, Q3, l3, al3, i3, s3⟩ := release_many copies h2 (copies + 1) (by omega) H2 Q2
    rw [show copies + 1 - copies = 1 by omega] at H3
    obtain ⟨h4, e4, H4, al4, _⟩ := kd_release H (by simpa using H3) Q3 (by omega)
      (fun x hx => by rw [i3, i2, i1 x hx]) (fun x hx => by rw [s3, s2, s1 x hx])
      (fun x hx y hy => d1 x hx y (by rw [s3, s2] at hy; exact hy))
    refine ⟨h1, h4, e1, al1, ?_, by rw [if_pos rfl]; exact al4⟩
    simp only [kdCopies, e2, Option.bind_eq_bind, Option.bind_some, releaseAll]
    rw [List.replicate_succ', List.foldlM_append, e3]
    simp only [Option.bind_eq_bind, Option.bind_some, List.foldlM_cons, List.foldlM_nil, e4,
      Option.pure_def]
  · obtain ⟨h3, e3, H3, Q3, l3, al3, i3, s3⟩ := release_many destroyed h2 (copies + 1) (by omega) H2 Q2
    refine ⟨h1, h3, e1, al1, ?_, by rw [if_neg hlast]; omega⟩
    simp only [kdCopies, e2, Option.bind_eq_bind, Option.bind_some, releaseAll, e3]

/-- A tree of three nodes and two copies of it: three nodes until the third object is destroyed. -/
example : (let t : KDTree.Tree Int := .node 0 0 [(0, 1)] (.leaf [1] [(0, 0)]) (.leaf [2] [(1, 1)])
    ((kdBuild [] t).bind (fun p => kdCopies p.1 p.2 2 2)).map alive = some 3 ∧
    ((kdBuild [] t).bind (fun p => kdCopies p.1 p.2 2 3)).map alive = some 0) := by
  decide +kernel

/-! ### single linkage tree -/

variable {D : Type}

/-- **C104, single linkage tree: the nodes are not destroyed.**  After the construction and the
destruction of the single linkage tree of `n ≥ 2` samples its `2n - 1` nodes are still there, and they
stay whatever other owning pointers are destroyed. -/
theorem C104_single_linkage_counterexample [AddCommGroup D] [LinearOrder D] {n : Nat}
    {mst es : List (Edge D)} (ht : IsSpanningTree n mst) (hw : ∀ e ∈ mst, 0 ≤ e.2.2) (hp : es.Perm mst)
    (hso : es.Pairwise (fun a b => a.2.2 ≤ b.2.2)) (hn : 2 ≤ n) (h : Heap) (hs : List Nat)
    (H : Acc h hs) :
    ∃ h1 root h2, linkTree h es = some (h1, root) ∧ release h1 root.addr = some h2 ∧ Acc h2 hs ∧
      alive h2 = alive h + (2 * n - 1) ∧
      ∀ fuel h3, releaseLoop fuel hs h2 = some h3 → ∀ a, h.length ≤ a → a < h.length + (2 * n - 1) →
        (cell h3 a).isSome := by
  obtain ⟨h1, p, e1, _, H1, l1, al1, all1, own, _⟩ := linkTree_spec ht hw hp hso H
  have hroot : p.addr ∈ refs h1 := by
    obtain ⟨c, hc⟩ := Option.isSome_iff_exists.1 all1.addr.2
    obtain ⟨b, _, _, hb⟩ := own hn p.addr all1.addr.1 (cell_length hc)
    exact mem_refs'.2 ⟨b, hb⟩
  obtain ⟨h2, e2, H2, l2, al2, i2, s2⟩ := release_keep H1 (Or.inl hroot)
  refine ⟨h1, p, h2, e1, e2, H2, by omega, ?_⟩
  intro fuel h3 e3 a ha hal
  refine (releaseLoop_leak (fun a => h.length ≤ a ∧ a < h1.length) fuel hs h2 h3 []
    (by simpa using H2) ?_ e3 a ⟨ha, by omega⟩).1
  rintro x ⟨hx1, hx2⟩
  obtain ⟨b, hb1, hb2, hxb⟩ := own hn x hx1 hx2
  exact ⟨b, ⟨hb1, hb2⟩, by rw [s2]; exact hxb⟩

/-- The tree of a single sample is destroyed: this is the only one. -/
theorem C104_single_sample_partial [AddCommGroup D] [LinearOrder D] (h : Heap) (hs : List Nat)
    (H : Acc h hs) :
    ∃ h1 root h2, linkTree h ([] : List (Edge D)) = some (h1, root) ∧
      release h1 root.addr = some h2 ∧ alive h2 = alive h := by
  have ht : IsSpanningTree 1 ([] : List (Edge D)) :=
    { vertices := by simp, length := rfl
      connects := by
        intro a b ha hb
        have : a = b := by omega
        subst this
        exact Relation.EqvGen.refl a
      acyclic := by simp }
  obtain ⟨h1, p, e1, _, H1, l1, al1, all1, _, one⟩ := linkTree_spec ht (by simp) (List.Perm.refl _)
    (by simp) H
  obtain ⟨hp, hr, hstr⟩ := one rfl
  have hnh : p.addr ∉ hs := by
    intro hm
    obtain ⟨c, hc⟩ := H.exists hm
    have := cell_length hc
    rw [hp] at this
    simp [PTree.addr] at this
  obtain ⟨h2, e2, H2, l2, al2, _, _⟩ := releaseLoop_last H1 hr hnh (refs h1).length []
  refine ⟨h1, p, h2, e1, ?_, by omega⟩
  unfold release
  rw [e2, hstr]
  cases (refs h1).length <;> rfl

/-! ### `HDBSCAN::predict` -/

/-- **C104, HDBSCAN: every call leaks.**  A call of `predict` on `n ≥ 2` samples leaves the `2n - 1` nodes
of the single linkage tree, and the nodes of the condensed tree unless it is a single one.  They stay
whatever other owning pointers are destroyed. -/
theorem C104_predict_counterexample [Ring D] [LinearOrder D] {n : Nat}
    {mst es : List (Edge D)} (ht : IsSpanningTree n mst) (hw : ∀ e ∈ mst, 0 ≤ e.2.2) (hp : es.Perm mst)
    (hso : es.Pairwise (fun a b => a.2.2 ≤ b.2.2)) (hn : 2 ≤ n) (inv : D → D) (m : Nat)
    (h : Heap) (hs : List Nat) (H : Acc h hs) :
    ∃ root h', build es = some root ∧ predictHeap m h es = some h' ∧ Acc h' hs ∧
      alive h' = alive h + ((2 * n - 1) + if (condenseRoot inv m root).isLeaf then 0
        else (condenseRoot inv m root).subtrees.length) ∧
      ∀ fuel h2, releaseLoop fuel hs h' = some h2 → ∀ a, h.length ≤ a → a < h'.length →
        (cell h' a).isSome → (cell h2 a).isSome := by
  obtain ⟨h1, p, e1, eb, H1, l1, al1, all1, own, _⟩ := linkTree_spec ht hw hp hso H
  have hin : p.addr < h1.length := by
    obtain ⟨c, hc⟩ := Option.isSome_iff_exists.1 all1.addr.2
    exact cell_length hc
  obtain ⟨h2, e2, H2, l2, al2, i2, s2⟩ := H1.retain' all1.addr.2
  have hown2 : ∀ a, h.length ≤ a → a < h1.length → ∃ b, h.length ≤ b ∧ b < h1.length ∧
      a ∈ strongAt h2 b := by
    intro a ha hal
    obtain ⟨b, hb1, hb2, hab⟩ := own hn a ha hal
    exact ⟨b, hb1, hb2, by rw [s2]; exact hab⟩
  have hallH : p.All (fun a => (cell h2 a).isSome) := all1.mono (fun a h => by rw [i2]; exact h.2)
  obtain ⟨h3, e3, H3, l3, al3, i3, ic3, s3⟩ := makeCondensed_spec H2 p hallH.addr
  obtain ⟨h4, k, e4, n4, H4, l4, al4, i4, s4, z4, c4, o4⟩ := condenseHeap_spec inv m p h3 _ h2.length
    ⟨p.erase, 0, 0, false⟩ H3 (hallH.mono i3) ic3
  have hs3 : ∀ x, ∀ y ∈ strongAt h2 x, y ∈ strongAt h3 x := by
    intro x y hy
    rw [s3, if_neg]
    · exact hy
    · rintro rfl
      rw [strongAt_ge (le_refl _)] at hy
      simp at hy
  have hcount : (condenseRoot inv m p.erase).subtrees.length = k + 1 := n4
  have hleaf : (condenseRoot inv m p.erase).isLeaf = decide (k = 0) := by
    revert hcount
    cases condenseRoot inv m p.erase with
    | leaf nd => intro hc; simp [CTree.subtrees] at hc; simp [CTree.isLeaf, hc]
    | split nd l r =>
      intro hc
      simp only [CTree.subtrees, List.length_cons, List.length_append] at hc
      have hl : 0 < l.subtrees.length := by cases l <;> simp [CTree.subtrees]
      simp only [CTree.isLeaf, Bool.false_eq, decide_eq_false_iff_not]
      omega
  have hpre : ∀ (r : Option Heap), releaseAll h4 [h2.length, p.addr, p.addr] = r →
      predictHeap m h es = r := by
    intro r hr
    rw [← hr]
    simp only [predictHeap, e1, e2, condensedHeap, e3, e4, Option.bind_eq_bind, Option.bind_some]
  by_cases hk : k = 0
  · -- the condensed tree is one node, which is destroyed
    have h43 := z4 hk
    subst h43
    have hfresh : h2.length ∉ refs h2 ∧ h2.length ∉ (p.addr :: p.addr :: hs) := by
      constructor
      · intro hm
        obtain ⟨c, hc⟩ := H2.exists_of_refs hm
        exact absurd (cell_length hc) (by omega)
      · intro hm
        obtain ⟨c, hc⟩ := H2.exists hm
        exact absurd (cell_length hc) (by omega)
    have hnr : h2.length ∉ refs h4 := by
      intro hm
      obtain ⟨b, hb⟩ := mem_refs'.1 hm
      rw [s3] at hb
      split at hb
      · simp only [List.mem_singleton] at hb
        omega
      · exact hfresh.1 (mem_refs'.2 ⟨b, hb⟩)
    have hne : 0 < (refs h4).length :=
      List.length_pos_of_mem (mem_refs'.2 ⟨h2.length, by rw [s3, if_pos rfl]; simp⟩ :
        p.addr ∈ refs h4)
    obtain ⟨f, hf⟩ : ∃ f, (refs h4).length = f + 1 := ⟨(refs h4).length - 1, by omega⟩
    obtain ⟨h5, e5, H5, l5, al5, c5, _⟩ := releaseLoop_last H4 hnr hfresh.2 (refs h4).length []
    have hstr : strongAt h4 h2.length = [p.addr] := by rw [s3, if_pos rfl]
    rw [hstr] at H5 e5
    simp only [List.cons_append, List.nil_append] at H5
    obtain ⟨h6, e6, H6, l6, al6, i6, s6, _⟩ := releaseLoop_keep H5 (Or.inr (by simp)) f []
    have er : release h4 h2.length = some h6 := by
      unfold release
      rw [e5, List.append_nil, hf, e6]
      cases f <;> rfl
    have hs5 : ∀ x, x ≠ h2.length → strongAt h5 x = strongAt h2 x := by
      intro x hx
      have : strongAt h5 x = strongAt h4 x := by
        unfold strongAt
        rw [c5, if_neg hx]
      rw [this, s3, if_neg hx]
    obtain ⟨h7, e7, H7, l7, al7, i7, s7⟩ := release_keep H6 (Or.inr (by simp))
    have hown7 : ∀ a, h.length ≤ a → a < h1.length → ∃ b, (h.length ≤ b ∧ b < h1.length) ∧
        a ∈ strongAt h7 b := by
      intro a ha hal
      obtain ⟨b, hb1, hb2, hab⟩ := hown2 a ha hal
      exact ⟨b, ⟨hb1, hb2⟩, by rw [s7, s6, hs5 b (by omega)]; exact hab⟩
    obtain ⟨b, _, hb⟩ := hown7 p.addr all1.addr.1 hin
    obtain ⟨h8, e8, H8, l8, al8, i8, s8⟩ := release_keep H7 (Or.inl (mem_refs'.2 ⟨b, hb⟩))
    refine ⟨p.erase, h8, eb, hpre _ ?_, H8, ?_, ?_⟩
    · simp only [releaseAll, List.foldlM_cons, List.foldlM_nil, er, e7, e8, Option.bind_eq_bind,
        Option.bind_some, Option.pure_def]
    · rw [hleaf, hk]
      simp only [decide_true, if_true]
      omega
    · intro fuel h9 e9 a ha hal halive
      have hne2 : a ≠ h2.length := by
        rintro rfl
        rw [i8, i7, i6, c5, if_pos rfl] at halive
        simp at halive
      refine (releaseLoop_leak (fun a => h.length ≤ a ∧ a < h1.length) fuel hs h8 h9 []
        (by simpa using H8) ?_ e9 a ⟨ha, by omega⟩).1
      rintro x ⟨hx1, hx2⟩
      obtain ⟨b, hb, hxb⟩ := hown7 x hx1 hx2
      exact ⟨b, hb, by rw [s8]; exact hxb⟩
  · -- the condensed nodes own each other
    obtain ⟨b, hb1, hb2, hb⟩ := c4 (by omega)
    obtain ⟨h5, e5, H5, l5, al5, i5, s5⟩ := release_keep H4 (Or.inl (mem_refs'.2 ⟨b, hb⟩))
    obtain ⟨h6, e6, H6, l6, al6, i6, s6⟩ := release_keep H5 (Or.inr (by simp))
    have hs6 : ∀ x, ∀ y ∈ strongAt h4 x, y ∈ strongAt h6 x := by
      intro x y hy; rw [s6, s5]; exact hy
    have hown6 : ∀ a, h.length ≤ a → a < h4.length → ∃ b, (h.length ≤ b ∧ b < h4.length) ∧
        a ∈ strongAt h6 b := by
      have hbound : ∀ b a, a ∈ strongAt h4 b → b < h4.length := by
        intro b a hab
        by_contra hge
        rw [strongAt_ge (by omega)] at hab
        simp at hab
      intro a ha hal
      by_cases ha1 : a < h1.length
      · obtain ⟨b, hb1, hb2, hab⟩ := hown2 a ha ha1
        exact ⟨b, ⟨hb1, by omega⟩, hs6 _ _ (s4 _ _ (hs3 _ _ hab))⟩
      · by_cases ha2 : a = h2.length
        · subst ha2
          exact ⟨b, ⟨by omega, hb2⟩, hs6 _ _ hb⟩
        · obtain ⟨b', hb', hab⟩ := o4 a (by omega) hal
          refine ⟨b', ⟨by omega, hbound b' a hab⟩, hs6 _ _ hab⟩
    obtain ⟨b', _, hb'⟩ := hown6 p.addr all1.addr.1 (by omega)
    obtain ⟨h7, e7, H7, l7, al7, i7, s7⟩ := release_keep H6 (Or.inl (mem_refs'.2 ⟨b', hb'⟩))
    refine ⟨p.erase, h7, eb, hpre _ ?_, H7, ?_, ?_⟩
    · simp only [releaseAll, List.foldlM_cons, List.foldlM_nil, e5, e6, e7, Option.bind_eq_bind,
        Option.bind_some, Option.pure_def]
    · rw [hleaf, hcount]
      simp only [hk, decide_false, Bool.false_eq_true, if_false]
      omega
    · intro fuel h9 e9 a ha hal _
      refine (releaseLoop_leak (fun a => h.length ≤ a ∧ a < h4.length) fuel hs h7 h9 []
        (by simpa using H7) ?_ e9 a ⟨ha, by omega⟩).1
      rintro x ⟨hx1, hx2⟩
      obtain ⟨b, hb, hxb⟩ := hown6 x hx1 hx2
      exact ⟨b, hb, by rw [s7]; exact hxb⟩

/-- **C104, HDBSCAN.**  The memory grows with the number of calls: `calls` calls on the same samples leave
`calls` times the nodes of one. -/
theorem C104_calls_counterexample [Ring D] [LinearOrder D] {n : Nat}
    {mst es : List (Edge D)} (ht : IsSpanningTree n mst) (hw : ∀ e ∈ mst, 0 ≤ e.2.2) (hp : es.Perm mst)
    (hso : es.Pairwise (fun a b => a.2.2 ≤ b.2.2)) (hn : 2 ≤ n) (m : Nat) (hs : List Nat) (calls : Nat) :
    ∀ h, Acc h hs → ∃ h', (List.replicate calls es).foldlM (predictHeap m) h = some h' ∧ Acc h' hs ∧
      alive h + calls * (2 * n - 1) ≤ alive h' := by
  induction calls with
  | zero => intro h H; exact ⟨h, rfl, H, by simp⟩
  | succ calls ih =>
    intro h H
    obtain ⟨root, h1, _, e1, H1, al1, _⟩ :=
      C104_predict_counterexample ht hw hp hso hn (fun _ => 0) m h hs H
    obtain ⟨h2, e2, H2, al2⟩ := ih h1 H1
    refine ⟨h2, ?_, H2, ?_⟩
    · rw [List.replicate_succ, List.foldlM_cons, e1]; exact e2
    · rw [Nat.succ_mul]; omega

/-- Four samples in two pairs: seven nodes of the single linkage tree and three of the condensed tree
are left by each call; with a minimal size of three only the seven. -/
example : (let es : List (Edge Int) := [(0, 1, 1), (2, 3, 1), (1, 2, 9)]
    (predictHeap 2 [] es).map alive = some 10 ∧
    ((predictHeap 2 [] es).bind (fun h => predictHeap 2 h es)).map alive = some 20 ∧
    (predictHeap 3 [] es).map alive = some 7) := by
  decide +kernel

/-- The theorem applies to the spanning tree of three samples of `C66_small_data_set`: two calls leave
twice five nodes and the nodes of the condensed tree. -/
example (h : Heap) (hs : List Nat) (H : Acc h hs) :
    ∃ root h', build [((0 : Nat), (1 : Nat), (1 : ℚ)), (1, 2, 2)] = some root ∧
      predictHeap 5 h [((0 : Nat), (1 : Nat), (1 : ℚ)), (1, 2, 2)] = some h' ∧ Acc h' hs ∧
      alive h + 5 ≤ alive h' := by
  obtain ⟨root, h', h1, h2, h3, h4, _⟩ := C104_predict_counterexample Verif.HDBSCAN.C66_small_data_set.2
    (by simp) (.refl _) (by simp) (by omega) (fun _ => 0) 5 h hs H
  exact ⟨root, h', h1, h2, h3, by omega⟩

/-- The empty heap has right counts. -/
example : Acc [] [] ∧ Pos [] := ⟨fun a => by simp [cell, owners, refs], fun a c h => by simp [cell] at h⟩

end Verif.RefCount
