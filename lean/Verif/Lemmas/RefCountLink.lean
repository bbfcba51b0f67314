import Verif.Lemmas.RefCountTrees

/-
The heap of the single linkage tree and of the condensed tree.
-/

namespace Verif.RefCount

open Verif.Dendrogram Verif.Graph
open Verif.ClosestPair (Edge)
open Verif.Boruvka (SInv_rep_rep)

set_option linter.unusedSectionVars false

variable {D : Type}

/-- The tree without the addresses. -/
def PTree.erase : PTree D → STree D
  | .leaf _ r => .leaf r
  | .node _ r lv s a b => .node r lv s a.erase b.erase

/-- All the addresses of the tree satisfy `P`. -/
def PTree.All (P : Nat → Prop) : PTree D → Prop
  | .leaf a _ => P a
  | .node a _ _ _ l r => P a ∧ l.All P ∧ r.All P

theorem PTree.All.mono {P Q : Nat → Prop} (hPQ : ∀ a, P a → Q a) : ∀ {t : PTree D}, t.All P → t.All Q := by
  intro t
  induction t with
  | leaf a r => exact hPQ a
  | node a r lv s l r' ihl ihr => exact fun h => ⟨hPQ a h.1, ihl h.2.1, ihr h.2.2⟩

theorem PTree.All.addr {P : Nat → Prop} : ∀ {t : PTree D}, t.All P → P t.addr
  | .leaf _ _, h => h
  | .node _ _ _ _ _ _, h => h.1

theorem PTree.size_erase : ∀ t : PTree D, t.erase.size = t.size
  | .leaf _ _ => rfl
  | .node _ _ _ _ _ _ => rfl

/-- The map of the nodes without the addresses. -/
def eraseNodes (nodes : List (Nat × PTree D)) : List (Nat × STree D) :=
  nodes.map (fun p => (p.1, p.2.erase))

theorem lookup_erase (nodes : List (Nat × PTree D)) (k : Nat) :
    lookup (eraseNodes nodes) k = (find nodes k).map PTree.erase := by
  induction nodes with
  | nil => rfl
  | cons p nodes ih =>
    unfold lookup find eraseNodes at ih ⊢
    simp only [List.map_cons, List.find?_cons]
    by_cases h : p.1 == k
    · simp [h]
    · simp only [h]; exact ih

theorem filter_erase (nodes : List (Nat × PTree D)) (f : Nat → Bool) :
    (eraseNodes nodes).filter (fun p => f p.1) = eraseNodes (nodes.filter (fun p => f p.1)) := by
  unfold eraseNodes
  rw [List.filter_map]
  rfl

theorem find_mem {nodes : List (Nat × PTree D)} {k : Nat} {t : PTree D} (e : find nodes k = some t) :
    (k, t) ∈ nodes := by
  unfold find at e
  cases h : nodes.find? (fun p => p.1 == k) with
  | none => simp [h] at e
  | some p =>
    simp only [h, Option.map_some, Option.some.injEq] at e
    have h1 := List.mem_of_find?_eq_some h
    have h2 := List.find?_some h
    simp only [beq_iff_eq] at h2
    subst h2 e
    exact h1

/-- The map with distinct keys, with two of its elements in front. -/
theorem perm_filter_key {A : Type} {nodes : List (Nat × A)} (hn : (nodes.map Prod.fst).Nodup) {k : Nat}
    {t : A} (h : (k, t) ∈ nodes) : nodes.Perm ((k, t) :: nodes.filter (fun p => p.1 != k)) := by
  induction nodes with
  | nil => simp at h
  | cons p nodes ih =>
    simp only [List.map_cons, List.nodup_cons] at hn
    rcases List.mem_cons.1 h with h | h
    · subst h
      rw [List.filter_cons_of_neg (by simp)]
      have : nodes.filter (fun p => p.1 != k) = nodes := by
        rw [List.filter_eq_self]
        intro q hq
        simp only [bne_iff_ne, ne_eq]
        intro hk
        exact hn.1 (List.mem_map.2 ⟨q, hq, hk⟩)
      rw [this]
    · have hne : p.1 ≠ k := fun hk => hn.1 (List.mem_map.2 ⟨_, h, hk.symm⟩)
      rw [List.filter_cons_of_pos (by simpa using hne)]
      exact ((ih hn.2 h).cons p).trans (List.Perm.swap _ _ _)

theorem perm_filter_two {A : Type} {nodes : List (Nat × A)} (hn : (nodes.map Prod.fst).Nodup)
    {k1 k2 : Nat} {t1 t2 : A} (h1 : (k1, t1) ∈ nodes) (h2 : (k2, t2) ∈ nodes) (hk : k1 ≠ k2) :
    nodes.Perm ((k1, t1) :: (k2, t2) :: nodes.filter (fun p => p.1 != k1 && p.1 != k2)) := by
  have p1 := perm_filter_key hn h1
  have hn' : ((nodes.filter (fun p => p.1 != k1)).map Prod.fst).Nodup :=
    List.Nodup.sublist (List.Sublist.map _ List.filter_sublist) hn
  have h2' : (k2, t2) ∈ nodes.filter (fun p => p.1 != k1) := by
    rw [List.mem_filter]; exact ⟨h2, by simpa using fun h => hk h.symm⟩
  have p2 := perm_filter_key hn' h2'
  rw [List.filter_filter] at p2
  refine p1.trans (List.Perm.cons _ (p2.trans ?_))
  refine List.Perm.cons _ (List.Perm.of_eq ?_)
  congr 1
  funext p
  exact Bool.and_comm _ _

/-- Invariant of the loop of `build`; `h0` is the heap before the call. -/
structure LInv (h0 : Heap) (n : Nat) (hs : List Nat) (nodes : List (Nat × PTree D)) (h : Heap) :
    Prop where
  acc : Acc h (nodes.map (fun p => p.2.addr) ++ hs)
  len : h.length + nodes.length = h0.length + 2 * n
  alive : RefCount.alive h + h0.length = RefCount.alive h0 + h.length
  owner : ∀ a, h0.length ≤ a → strongAt h a ≠ [] → ∃ b, h0.length ≤ b ∧ a ∈ strongAt h b
  leaves : ∀ a, h0.length ≤ a → a < h.length → strongAt h a = [] → a ∈ nodes.map (fun p => p.2.addr)
  head : nodes.length < n → ∃ p, nodes.head? = some p ∧ strongAt h p.2.addr ≠ []
  all : ∀ p ∈ nodes, p.2.All (fun a => h0.length ≤ a ∧ (cell h a).isSome)

theorem strongAt_ge {h : Heap} {x : Nat} (hx : h.length ≤ x) : strongAt h x = [] := by
  unfold strongAt
  rw [cell_ge hx]; rfl

/-- Two nodes of the map get a common parent. -/
theorem link_heap {h0 : Heap} {n : Nat} {hs : List Nat} {nodes rest : List (Nat × PTree D)} {h : Heap}
    (H : LInv h0 n hs nodes h) {k1 k2 k : Nat} {t1 t2 : PTree D} (lv : D) (sz : Nat)
    (hp : nodes.Perm ((k1, t1) :: (k2, t2) :: rest)) (hlen : nodes.length ≤ n) :
    ∃ h1 h2 h3 h4, assign (makeShared h).1 t1.addr h.length = some h1 ∧
      assign h1 t2.addr h.length = some h2 ∧ store h2 h.length t1.addr = some h3 ∧
      store h3 h.length t2.addr = some h4 ∧
      LInv h0 n hs ((k, PTree.node h.length k lv sz t1 t2) :: rest) h4 := by
  have hm1 : (k1, t1) ∈ nodes := hp.mem_iff.2 (by simp)
  have hm2 : (k2, t2) ∈ nodes := hp.mem_iff.2 (by simp)
  have hall1 := H.all _ hm1
  have hall2 := H.all _ hm2
  dsimp only at hall1 hall2
  have ha1 := hall1.addr
  have ha2 := hall2.addr
  have H0 := H.acc.make
  have l0 : (makeShared h).1.length = h.length + 1 := by simp [makeShared]
  have al0 : RefCount.alive (makeShared h).1 = RefCount.alive h + 1 := by simp [makeShared, alive_append]
  have i0 : ∀ x, (cell h x).isSome → (cell (makeShared h).1 x).isSome := by
    intro x hx; rw [isSome_make, hx]; rfl
  have ic : (cell (makeShared h).1 h.length).isSome := by rw [isSome_make]; simp
  have hlt : ∀ x, (cell h x).isSome → x < h.length := by
    intro x hx
    obtain ⟨c, hc⟩ := Option.isSome_iff_exists.1 hx
    exact cell_length hc
  obtain ⟨ca1, ea1⟩ := Option.isSome_iff_exists.1 (i0 _ ha1.2)
  obtain ⟨cc, ecc⟩ := Option.isSome_iff_exists.1 ic
  obtain ⟨h1, e1, H1, l1, al1, i1, s1⟩ := H0.assign ea1 ecc
  obtain ⟨ca2, ea2⟩ := Option.isSome_iff_exists.1
    (show (cell h1 t2.addr).isSome by rw [i1]; exact i0 _ ha2.2)
  obtain ⟨cc', ecc'⟩ := Option.isSome_iff_exists.1 (show (cell h1 h.length).isSome by rw [i1]; exact ic)
  obtain ⟨h2, e2, H2, l2, al2, i2, s2⟩ := H1.assign ea2 ecc'
  have hperm : ((makeShared h).2 :: (nodes.map (fun p => p.2.addr) ++ hs)).Perm
      (t1.addr :: t2.addr :: h.length :: (rest.map (fun p => p.2.addr) ++ hs)) := by
    have hq := (hp.map (fun p => p.2.addr)).append_right hs
    simp only [List.map_cons, List.cons_append] at hq
    refine (hq.cons _).trans ?_
    refine (List.Perm.swap _ _ _).trans (List.Perm.cons _ ?_)
    exact List.Perm.swap _ _ _
  obtain ⟨h3, e3, H3, l3, al3, i3, s3⟩ := (H2.perm hperm).store'
    (show (cell h2 h.length).isSome by rw [i2, i1]; exact ic)
  obtain ⟨h4, e4, H4, l4, al4, i4, s4⟩ := H3.store'
    (show (cell h3 h.length).isSome by rw [i3, i2, i1]; exact ic)
  have hn1 : t1.addr ≠ h.length := Nat.ne_of_lt (hlt _ ha1.2)
  have hn2 : t2.addr ≠ h.length := Nat.ne_of_lt (hlt _ ha2.2)
  -- what the objects own at the end
  have sc : strongAt h4 h.length = [t2.addr, t1.addr] := by
    rw [s4, if_pos rfl, s3, if_pos rfl, s2, if_neg hn2.symm, s1, if_neg hn1.symm, strongAt_make,
      strongAt_ge (le_refl _)]
  have so : ∀ x, x ≠ h.length → x ≠ t1.addr → x ≠ t2.addr → strongAt h4 x = strongAt h x := by
    intro x hx hx1 hx2
    rw [s4, if_neg hx, s3, if_neg hx, s2, if_neg hx2, s1, if_neg hx1, strongAt_make]
  have smono : ∀ x y, y ∈ strongAt h x → y ∈ strongAt h4 x := by
    intro x y hy
    have hxl : x ≠ h.length := by
      rintro rfl
      rw [strongAt_ge (le_refl _)] at hy
      simp at hy
    rw [s4, if_neg hxl, s3, if_neg hxl, s2]
    by_cases hx2 : x = t2.addr
    · rw [if_pos hx2, List.mem_cons, s1, ← hx2]
      right
      by_cases hx1 : x = t1.addr
      · rw [if_pos hx1, List.mem_cons, strongAt_make, ← hx1]; exact Or.inr hy
      · rw [if_neg hx1, strongAt_make]; exact hy
    · rw [if_neg hx2, s1]
      by_cases hx1 : x = t1.addr
      · rw [if_pos hx1, List.mem_cons, strongAt_make, ← hx1]; exact Or.inr hy
      · rw [if_neg hx1, strongAt_make]; exact hy
  have sp1 : h.length ∈ strongAt h4 t1.addr := by
    rw [s4, if_neg hn1, s3, if_neg hn1, s2]
    by_cases hx2 : t1.addr = t2.addr
    · rw [if_pos hx2]; simp
    · rw [if_neg hx2, s1, if_pos rfl]; simp
  have sp2 : h.length ∈ strongAt h4 t2.addr := by
    rw [s4, if_neg hn2, s3, if_neg hn2, s2, if_pos rfl]; simp
  have hbase : h0.length ≤ h.length := le_trans ha1.1 (Nat.le_of_lt (hlt _ ha1.2))
  have i4' : ∀ x, (cell h x).isSome → (cell h4 x).isSome := by
    intro x hx; rw [i4, i3, i2, i1]; exact i0 x hx
  have hl := hp.length_eq
  simp only [List.length_cons] at hl
  refine ⟨h1, h2, h3, h4, e1, e2, e3, e4, ⟨H4, ?_, ?_, ?_, ?_, ?_, ?_⟩⟩
  · have := H.len
    rw [l4, l3, l2, l1, l0, List.length_cons]; omega
  · have := H.alive
    rw [l4, l3, l2, l1, l0, al4, al3, al2, al1, al0]; omega
  · intro a ha hne
    by_cases hac : a = h.length
    · subst hac; exact ⟨_, ha1.1, sp1⟩
    · by_cases hx1 : a = t1.addr
      · subst hx1; exact ⟨_, hbase, by rw [sc]; simp⟩
      · by_cases hx2 : a = t2.addr
        · subst hx2; exact ⟨_, hbase, by rw [sc]; simp⟩
        · rw [so a hac hx1 hx2] at hne
          obtain ⟨b, hb, hab⟩ := H.owner a ha hne
          exact ⟨b, hb, smono b a hab⟩
  · intro a ha hal hnil
    have hac : a ≠ h.length := by rintro rfl; rw [sc] at hnil; simp at hnil
    have hx1 : a ≠ t1.addr := by rintro rfl; rw [hnil] at sp1; simp at sp1
    have hx2 : a ≠ t2.addr := by rintro rfl; rw [hnil] at sp2; simp at sp2
    rw [so a hac hx1 hx2] at hnil
    rw [l4, l3, l2, l1, l0] at hal
    have := H.leaves a ha (by omega) hnil
    rw [(hp.map (fun p => p.2.addr)).mem_iff] at this
    simp only [List.map_cons, List.mem_cons] at this
    rcases this with h | h | h
    · exact absurd h hx1
    · exact absurd h hx2
    · simp [h]
  · intro _
    exact ⟨_, rfl, by simp [PTree.addr, sc]⟩
  · intro p hpm
    rcases List.mem_cons.1 hpm with rfl | hpm
    · refine ⟨⟨hbase, ?_⟩, ?_, ?_⟩
      · rw [i4, i3, i2, i1]; exact ic
      · exact hall1.mono (fun a h => ⟨h.1, i4' a h.2⟩)
      · exact hall2.mono (fun a h => ⟨h.1, i4' a h.2⟩)
    · exact (H.all p (hp.mem_iff.2 (by simp [hpm]))).mono (fun a h => ⟨h.1, i4' a h.2⟩)

theorem Acc.replicate {h : Heap} {hs : List Nat} (H : Acc h hs) : ∀ n,
    Acc (h ++ List.replicate n (some ⟨1, []⟩)) (List.range' h.length n ++ hs) := by
  intro n
  induction n with
  | zero => simpa using H
  | succ n ih =>
    have := ih.make
    simp only [makeShared, List.length_append, List.length_replicate] at this
    rw [List.append_assoc, ← List.replicate_succ'] at this
    refine this.perm ?_
    rw [List.range'_concat, List.append_assoc]
    simp only [Nat.one_mul]
    exact (List.perm_middle (l₁ := List.range' h.length n) (l₂ := hs)).symm

theorem alive_replicate (h : Heap) (n : Nat) (c : Cell) :
    alive (h ++ List.replicate n (some c)) = alive h + n := by
  simp [alive, List.countP_replicate]

theorem cell_replicate (h : Heap) (n : Nat) (c : Cell) (x : Nat) :
    cell (h ++ List.replicate n (some c)) x =
      if x < h.length then cell h x else if x < h.length + n then some c else none := by
  unfold cell
  by_cases hx : x < h.length
  · rw [if_pos hx, List.getElem?_append_left hx]
  · rw [if_neg hx, List.getElem?_append_right (by omega), List.getElem?_replicate]
    by_cases hy : x < h.length + n
    · rw [if_pos hy, if_pos (by omega)]; rfl
    · rw [if_neg hy, if_neg (by omega)]; rfl

theorem LInv.init {h0 : Heap} {hs : List Nat} (H : Acc h0 hs) (n : Nat) :
    LInv (D := D) h0 n hs (makeLeaves n h0).1 (makeLeaves (D := D) n h0).2 := by
  have hmap : ((makeLeaves (D := D) n h0).1.map (fun p => p.2.addr)) = List.range' h0.length n := by
    simp only [makeLeaves, List.map_map]
    rw [List.range'_eq_map_range]
    rfl
  have hstr : ∀ a, h0.length ≤ a → strongAt (makeLeaves (D := D) n h0).2 a = [] := by
    intro a ha
    unfold strongAt
    simp only [makeLeaves, cell_replicate]
    rw [if_neg (by omega)]
    split <;> rfl
  refine ⟨?_, ?_, ?_, ?_, ?_, ?_, ?_⟩
  · rw [hmap]; exact H.replicate n
  · simp [makeLeaves]; omega
  · simp only [makeLeaves, alive_replicate, List.length_append, List.length_replicate]; omega
  · intro a ha hne; exact absurd (hstr a ha) hne
  · intro a ha hal _
    rw [hmap, List.mem_range'_1]
    simp only [makeLeaves, List.length_append, List.length_replicate] at hal
    exact ⟨ha, hal⟩
  · intro hlt; simp [makeLeaves] at hlt
  · intro p hp
    simp only [makeLeaves, List.mem_map, List.mem_range] at hp
    obtain ⟨i, hi, rfl⟩ := hp
    refine ⟨by omega, ?_⟩
    simp only [makeLeaves, cell_replicate]
    rw [if_neg (by omega), if_pos (by omega)]; rfl

variable [AddCommGroup D] [LinearOrder D]

/-- One edge: the heap follows `buildStep`. -/
theorem linkStep_spec {n : Nat} {P : List (Edge D)} {u : UF.State} {nodes : List (Nat × PTree D)}
    {r : Nat → Nat} (B : BInv n P (u, eraseNodes nodes) r) {e : Edge D} (hu : e.1 < n) (hv : e.2.1 < n)
    (hw : 0 ≤ e.2.2) (hmax : ∀ e' ∈ P, e'.2.2 ≤ e.2.2) {h0 h : Heap} {hs : List Nat}
    (H : LInv h0 n hs nodes h) (hlen : nodes.length ≤ n) :
    ∃ u' nodes' h' r', linkStep (u, nodes, h) e = some (u', nodes', h') ∧
      buildStep (u, eraseNodes nodes) e = some (u', eraseNodes nodes') ∧
      BInv n (P ++ [e]) (u', eraseNodes nodes') r' ∧ LInv h0 n hs nodes' h' ∧ nodes'.length ≤ n := by
  obtain ⟨st', r', eb, B'⟩ := B.step hu hv hw hmax
  obtain ⟨u1, e1, inv1, _⟩ := UF.find_spec B.uf hu
  obtain ⟨u2, e2, inv2, _⟩ := UF.find_spec inv1 hv
  obtain ⟨u3, c, d, e3, hcd, inv3⟩ := UF.merge_spec inv2 hu hv
  have eb' := eb
  simp only [buildStep, e1, e2, e3, Option.bind_eq_bind, Option.bind_some] at eb
  by_cases hmerge : c ≠ r e.1 ∨ c ≠ r e.2.1
  · rw [if_pos hmerge] at eb
    simp only [Option.bind_eq_some_iff, Option.some.injEq] at eb
    obtain ⟨s1, es1, s2, es2, rfl⟩ := eb
    rw [lookup_erase] at es1 es2
    obtain ⟨t1, f1, rfl⟩ := Option.map_eq_some_iff.1 es1
    obtain ⟨t2, f2, rfl⟩ := Option.map_eq_some_iff.1 es2
    have hne : r e.1 ≠ r e.2.1 := by
      intro heq
      rcases hcd with ⟨h1, _⟩ | ⟨h1, _⟩
      · rcases hmerge with h | h
        · exact h h1
        · exact h (h1.trans heq)
      · rcases hmerge with h | h
        · exact h (h1.trans heq.symm)
        · exact h h1
    have hnd : (nodes.map Prod.fst).Nodup := by
      have := B.nodup
      simpa [eraseNodes, Function.comp_def] using this
    have hp := perm_filter_two hnd (find_mem f1) (find_mem f2) hne
    obtain ⟨h1, h2, h3, h4, k1, k2, k3, k4, H'⟩ := link_heap (k := c) H e.2.2 (t1.size + t2.size) hp hlen
    have her : eraseNodes ((c, PTree.node h.length c e.2.2 (t1.size + t2.size) t1 t2) ::
        nodes.filter (fun p => p.1 != r e.1 && p.1 != r e.2.1)) =
        (c, STree.node c e.2.2 (t1.erase.size + t2.erase.size) t1.erase t2.erase) ::
        (eraseNodes nodes).filter (fun p => p.1 != r e.1 && p.1 != r e.2.1) := by
      rw [filter_erase nodes (fun k => k != r e.1 && k != r e.2.1)]
      simp [eraseNodes, PTree.erase, PTree.size_erase]
    refine ⟨u3, _, h4, r', ?_, by rw [her]; exact eb', by rw [her]; exact B', H', ?_⟩
    · simp only [linkStep, e1, e2, e3, Option.bind_eq_bind, Option.bind_some]
      rw [if_pos hmerge]
      have hmk : makeShared h = ((makeShared h).1, h.length) := rfl
      rw [hmk]
      simp only [f1, f2, k1, k2, k3, k4, Option.bind_some]
    · have := hp.length_eq
      simp only [List.length_cons] at this ⊢
      omega
  · rw [if_neg hmerge] at eb
    simp only [Option.some.injEq] at eb
    subst eb
    refine ⟨u3, nodes, h, r', ?_, eb', B', H, hlen⟩
    simp only [linkStep, e1, e2, e3, Option.bind_eq_bind, Option.bind_some]
    rw [if_neg hmerge]

theorem link_fold {n : Nat} {h0 : Heap} {hs : List Nat} : ∀ (es P : List (Edge D)) (u : UF.State)
    (nodes : List (Nat × PTree D)) (h : Heap) (r : Nat → Nat), BInv n P (u, eraseNodes nodes) r →
    (∀ e ∈ es, e.1 < n ∧ e.2.1 < n) → (∀ e ∈ es, 0 ≤ e.2.2) →
    (P ++ es).Pairwise (fun a b => a.2.2 ≤ b.2.2) → LInv h0 n hs nodes h → nodes.length ≤ n →
    ∃ u' nodes' h' r', es.foldlM linkStep (u, nodes, h) = some (u', nodes', h') ∧
      es.foldlM buildStep (u, eraseNodes nodes) = some (u', eraseNodes nodes') ∧
      BInv n (P ++ es) (u', eraseNodes nodes') r' ∧ LInv h0 n hs nodes' h' ∧ nodes'.length ≤ n := by
  intro es
  induction es with
  | nil => intro P u nodes h r B _ _ _ H hl; exact ⟨u, nodes, h, r, rfl, rfl, by simpa using B, H, hl⟩
  | cons e es ih =>
    intro P u nodes h r B hv hw hs' H hl
    have hmax : ∀ e' ∈ P, e'.2.2 ≤ e.2.2 := fun e' he' => (List.pairwise_append.1 hs').2.2 e' he' e (by simp)
    obtain ⟨u1, n1, h1, r1, e1, e2, B1, H1, hl1⟩ := linkStep_spec B (hv e (by simp)).1 (hv e (by simp)).2
      (hw e (by simp)) hmax H hl
    obtain ⟨u2, n2, h2, r2, f1, f2, B2, H2, hl2⟩ := ih (P ++ [e]) u1 n1 h1 r1 B1
      (fun e he => hv e (by simp [he])) (fun e he => hw e (by simp [he])) (by simpa using hs') H1 hl1
    refine ⟨u2, n2, h2, r2, ?_, ?_, by simpa using B2, H2, hl2⟩
    · rw [List.foldlM_cons, e1]; exact f1
    · rw [List.foldlM_cons, e2]; exact f2

/-- All samples are linked: one node is left. -/
theorem final_single {n : Nat} {P : List (Edge D)} {st : UF.State × List (Nat × STree D)}
    {r : Nat → Nat} (h : BInv n P st r) (hn : 0 < n) (hcon : Connects n P) : ∃ p, st.2 = [p] := by
  have hone : ∀ x, x < n → r x = r 0 := fun x hx =>
    (h.linked x 0).2 (linked_iff_conn.1 (hcon x 0 hx hn))
  have hk0 : r 0 ∈ st.2.map Prod.fst :=
    (h.keys _).2 ⟨UF.Inv.rep_lt h.uf hn, SInv_rep_rep h.uf hn⟩
  have hkeys : ∀ k ∈ st.2.map Prod.fst, k = r 0 := by
    intro k hk
    obtain ⟨h1, h2⟩ := (h.keys k).1 hk
    rw [← h2, hone k h1]
  obtain ⟨u, nodes⟩ := st
  dsimp only at hk0 hkeys ⊢
  cases nodes with
  | nil => simp at hk0
  | cons p rest =>
    cases rest with
    | nil => exact ⟨p, rfl⟩
    | cons q rest =>
      have h1 := hkeys p.1 (by simp)
      have h2 := hkeys q.1 (by simp)
      have := h.nodup
      simp only [List.map_cons, List.nodup_cons, List.mem_cons, not_or] at this
      exact absurd (h1.trans h2.symm) this.1.1

/-- The heap after the construction of the single linkage tree of a spanning tree. -/
theorem linkTree_spec {n : Nat} {mst es : List (Edge D)} (ht : IsSpanningTree n mst)
    (hw : ∀ e ∈ mst, 0 ≤ e.2.2) (hp : es.Perm mst) (hso : es.Pairwise (fun a b => a.2.2 ≤ b.2.2))
    {h : Heap} {hs : List Nat} (H : Acc h hs) :
    ∃ h' p, linkTree h es = some (h', p) ∧ build es = some p.erase ∧ Acc h' (p.addr :: hs) ∧
      h'.length = h.length + (2 * n - 1) ∧ alive h' = alive h + (2 * n - 1) ∧
      p.All (fun a => h.length ≤ a ∧ (cell h' a).isSome) ∧
      (2 ≤ n → ∀ a, h.length ≤ a → a < h'.length → ∃ b, h.length ≤ b ∧ b < h'.length ∧
        a ∈ strongAt h' b) ∧
      (n = 1 → p = .leaf h.length 0 ∧ p.addr ∉ refs h' ∧ strongAt h' p.addr = []) := by
  have hn : es.length + 1 = n := by rw [hp.length_eq]; exact ht.length
  have hv : ∀ e ∈ es, e.1 < n ∧ e.2.1 < n := fun e he => ht.vertices e (hp.mem_iff.1 he)
  have hcon : Connects n es := by
    intro a b ha hb
    have := ht.connects a b ha hb
    unfold Linked at this ⊢
    have hfun : (fun a b => ∃ w, (a, b, w) ∈ es) = (fun a b => ∃ w, (a, b, w) ∈ mst) := by
      funext a b
      exact propext ⟨fun ⟨w, h⟩ => ⟨w, hp.mem_iff.1 h⟩, fun ⟨w, h⟩ => ⟨w, hp.mem_iff.2 h⟩⟩
    rw [hfun]; exact this
  have her : eraseNodes (makeLeaves (D := D) n h).1 = (List.range n).map (fun i => (i, STree.leaf i)) := by
    simp [eraseNodes, makeLeaves, PTree.erase]
  obtain ⟨u, nodes, h1, r, f1, f2, B, L, hl⟩ := link_fold (n := n) (h0 := h) (hs := hs) es []
    (UF.init n) (makeLeaves n h).1 (makeLeaves (D := D) n h).2 id (by rw [her]; exact BInv.init n) hv
    (fun e he => hw e (hp.mem_iff.1 he)) (by simpa using hso) (LInv.init H n) (by simp [makeLeaves])
  rw [List.nil_append] at B
  obtain ⟨q, hq⟩ := final_single B (by omega) hcon
  have hnodes : ∃ p, nodes = [p] := by
    cases nodes with
    | nil => simp [eraseNodes] at hq
    | cons p rest =>
      cases rest with
      | nil => exact ⟨p, rfl⟩
      | cons => simp [eraseNodes] at hq
  obtain ⟨⟨k, p⟩, rfl⟩ := hnodes
  have hacc := L.acc
  simp only [List.map_cons, List.map_nil, List.cons_append, List.nil_append] at hacc
  have hlen := L.len
  simp only [List.length_cons, List.length_nil] at hlen
  have hall := L.all (k, p) (by simp)
  dsimp only at hall
  have hsome : (cell h1 p.addr).isSome := hall.addr.2
  obtain ⟨h2, e2, H2, l2, al2, i2, s2⟩ := hacc.retain' hsome
  obtain ⟨h3, e3, H3, l3, al3, i3, s3⟩ := release_keep H2 (Or.inr (by simp))
  have hs3 : ∀ x, strongAt h3 x = strongAt h1 x := fun x => by rw [s3, s2]
  have hi3 : ∀ x, (cell h3 x).isSome = (cell h1 x).isSome := fun x => by rw [i3, i2]
  have halive := L.alive
  refine ⟨h3, p, ?_, ?_, H3, by omega, by omega, ?_, ?_, ?_⟩
  · simp only [linkTree, hn]
    have hmk : makeLeaves (D := D) n h = ((makeLeaves n h).1, (makeLeaves (D := D) n h).2) := rfl
    rw [hmk]
    simp only [f1, Option.bind_eq_bind, Option.bind_some, List.head?_cons, e2, List.map_cons,
      List.map_nil, releaseAll, List.foldlM_cons, List.foldlM_nil, e3, Option.pure_def]
  · simp only [build, hn]
    rw [← her, f2]
    simp [eraseNodes]
  · exact hall.mono (fun a h => ⟨h.1, by rw [hi3]; exact h.2⟩)
  · intro h2n a ha hal
    have hne : strongAt h1 a ≠ [] := by
      intro hnil
      have := L.leaves a ha (by omega) hnil
      simp only [List.map_cons, List.map_nil, List.mem_singleton] at this
      obtain ⟨q', hq', hne⟩ := L.head (by simp; omega)
      simp only [List.head?_cons, Option.some.injEq] at hq'
      subst hq'
      exact hne (by rw [← this]; exact hnil)
    obtain ⟨b, hb, hab⟩ := L.owner a ha hne
    refine ⟨b, hb, ?_, by rw [hs3]; exact hab⟩
    by_contra hge
    rw [strongAt_ge (by omega)] at hab
    simp at hab
  · intro h1n
    have hes : es = [] := List.eq_nil_of_length_eq_zero (by omega)
    subst hes
    subst h1n
    simp only [List.foldlM_nil, Option.pure_def, Option.some.injEq, Prod.mk.injEq] at f1
    obtain ⟨_, f1, f3⟩ := f1
    have hp' : p = .leaf h.length 0 := by
      have : [(k, p)] = [(0, PTree.leaf (h.length + 0) 0)] := by rw [← f1]; rfl
      simpa using (List.cons.inj this).1 |> congrArg Prod.snd
    have hsn : ∀ x, strongAt h3 x = strongAt h x := by
      intro x
      rw [hs3, ← f3]
      exact strongAt_make h x
    refine ⟨hp', ?_, ?_⟩
    · intro hmem
      obtain ⟨b, hb⟩ := mem_refs'.1 hmem
      rw [hsn] at hb
      obtain ⟨c, hc⟩ := H.exists_of_refs (mem_refs'.2 ⟨b, hb⟩)
      have := cell_length hc
      rw [hp'] at this
      simp [PTree.addr] at this
    · rw [hsn, hp']
      exact strongAt_ge (le_refl _)

end Verif.RefCount
