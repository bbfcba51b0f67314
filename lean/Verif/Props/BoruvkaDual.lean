import Verif.Lemmas.BoruvkaDual
import Verif.Props.Boruvka
import Verif.Props.DualTree

/-
Property C72: `make_tree_2`, Borůvka's algorithm with the dual-tree search.
-/

namespace Verif.Boruvka

open Verif.KDTree Verif.Buffer Verif.Search Verif.Sorting Verif.Distances Verif.DualTree Verif.Graph

set_option linter.unusedSectionVars false

/-! ### weights of another type -/

/-- Edges with finite weights. -/
def finite (e : Nat × Nat × ℝ) : Nat × Nat × WithTop ℝ := (e.1, e.2.1, ((e.2.2 : ℝ) : WithTop ℝ))

/-- The same edges with other weights. -/
def reweigh {D E : Type} (g : Nat → Nat → E) (e : Nat × Nat × D) : Nat × Nat × E := (e.1, e.2.1, g e.1 e.2.1)

theorem conn_reweigh {D E : Type} {g : Nat → Nat → E} {R : Nat → Nat → Prop} {es : List (Nat × Nat × D)}
    {a b : Nat} (h : Conn R (es.map (reweigh g)) a b) : Conn R es a b := by
  induction h with
  | rel x y h =>
    rcases h with h | ⟨w, h⟩
    · exact Conn.base h
    · obtain ⟨e, he, h1⟩ := List.mem_map.1 h
      obtain ⟨c, d, v⟩ := e
      simp only [reweigh, Prod.mk.injEq] at h1
      obtain ⟨rfl, rfl, _⟩ := h1
      exact Conn.edge (w := v) he
  | refl x => exact .refl x
  | symm x y _ ih => exact ih.symm
  | trans x y z _ _ ih1 ih2 => exact ih1.trans ih2

theorem conn_reweigh' {D E : Type} {g : Nat → Nat → E} {R : Nat → Nat → Prop} {es : List (Nat × Nat × D)}
    {a b : Nat} (h : Conn R es a b) : Conn R (es.map (reweigh g)) a b := by
  induction h with
  | rel x y h =>
    rcases h with h | ⟨w, h⟩
    · exact Conn.base h
    · exact Conn.edge (w := g x y) (List.mem_map.2 ⟨_, h, rfl⟩)
  | refl x => exact .refl x
  | symm x y _ ih => exact ih.symm
  | trans x y z _ _ ih1 ih2 => exact ih1.trans ih2

theorem indep_reweigh {D E : Type} {g : Nat → Nat → E} {R : Nat → Nat → Prop} {es : List (Nat × Nat × D)}
    (h : Indep R es) : Indep R (es.map (reweigh g)) := by
  induction es using List.reverseRecOn with
  | nil => exact Indep.nil
  | append_singleton es e ih =>
    obtain ⟨h1, h2⟩ := indep_snoc.1 h
    rw [List.map_append, List.map_singleton]
    exact indep_snoc.2 ⟨ih h1, fun hc => h2 (conn_reweigh hc)⟩

theorem spanningTree_reweigh {D E : Type} {g : Nat → Nat → E} {n : Nat} {es : List (Nat × Nat × D)}
    (h : IsSpanningTree n es) : IsSpanningTree n (es.map (reweigh g)) := by
  refine isSpanningTree_of ?_ (by simpa using h.length) ?_
  · intro e he
    obtain ⟨e', he', rfl⟩ := List.mem_map.1 he
    exact h.vertices e' he'
  · intro a b ha hb
    exact linked_iff_conn.2 (conn_reweigh' (linked_iff_conn.1 (h.connects a b ha hb)))

/-- Edges weighted with distances have finite weights. -/
theorem finite_reweigh {dist : Nat → Nat → ℝ} {es : List (Nat × Nat × WithTop ℝ)}
    (hw : ∀ e ∈ es, e.2.2 = ((dist e.1 e.2.1 : ℝ) : WithTop ℝ)) : es = (es.map (reweigh dist)).map finite := by
  induction es with
  | nil => rfl
  | cons e es ih =>
    obtain ⟨a, b, w⟩ := e
    have h1 : w = ((dist a b : ℝ) : WithTop ℝ) := hw (a, b, w) (List.mem_cons_self ..)
    subst h1
    rw [List.map_cons, List.map_cons, ← ih (fun e he => hw e (List.mem_cons_of_mem _ he))]
    rfl

/-! ### floating data -/

section

variable {n : Nat} {eps : ℝ} {nf : Nat} {x : Nat → Nat → ℝ} {dist : Nat → Nat → ℝ}
  {policy : List Nat → Nat → Box ℝ → Nat} {vmax vlowest : ℝ} {t : KDTree.Tree ℝ}

/-- The constants of floating distances; the buffers are given by `ufEnv`. -/
noncomputable def floatEnv (heap : Heap (WithTop ℝ)) (k : Nat) : Env ℝ (WithTop ℝ) UF.State := realEnv heap k (fun _ _ _ _ => none)

/-- Distances of all pairs, as values of the distance type. -/
def dist' (dist : Nat → Nat → ℝ) (a b : Nat) : WithTop ℝ := ((dist a b : ℝ) : WithTop ℝ)

/-- Admissible pairs of the component `k`. -/
noncomputable def outside (dist : Nat → Nat → ℝ) (r : Nat → Nat) (k : Nat) (q i : Nat) : Option (WithTop ℝ) :=
  if r k = r i then none else some (dist' dist q i)

theorem outside_offer (heap : Heap (WithTop ℝ)) (r : Nat → Nat) {k : Nat} (hk : k < n) {TR : List Nat} (hTR : ∀ i ∈ TR, i < n) (cap : Nat) :
    ∀ q (u : UF.State), UF.SInv n u r → ∀ b b', ∀ i ∈ TR, Buf.offer (outside dist r k q) b i = some b' →
      ∃ u', UF.SInv n u' r ∧
        (ufEnv (floatEnv heap cap) (fun a b => some (dist' dist a b)) k).offer q u b i = some (u', b') := by
  intro q u hu b b' i hi h
  obtain ⟨⟨u', b''⟩, h1, h2, h3⟩ := (sim_uf (K := ℝ) (fun _ _ => 0) (fun _ => 0) (fun _ _ => 0)
    (fun i => some (dist' dist q i)) n k r hk).offer (u, b) i b' hu (hTR i hi) h
  simp only at h2
  subst h2
  exact ⟨u', h3, h1⟩

theorem outside_spec {r : Nat → Nat} {k a b : Nat} {d : WithTop ℝ} (h : outside dist r k a b = some d) :
    r k ≠ r b ∧ d = dist' dist a b := by
  unfold outside at h
  split at h
  · cases h
  · rename_i hne
    exact ⟨hne, (Option.some.inj h).symm⟩

/-- One neighbour per query. -/
theorem dualSetting_one (heap : Heap (WithTop ℝ)) (he : 0 ≤ eps)
    (hd : ∀ a b, euclidean (row nf (x a)) (row nf (x b)) = some (dist a b))
    (hpol : ∀ idx d box, policy idx d box < nf) (hb : t.box.length = nf)
    (hbox : t.BoxesOk (fun a b => a ≤ b + 2 * eps) x) (ht : ∀ i, i ∈ t.indices ↔ i < n) :
    DualSetting (queryTree (eqEps eps) x policy nf vmax vlowest) (floatEnv heap 1)
      (fun a b => some (dist' dist a b)) t n (dist' dist)
      (fun (s : ℝ) a b => a < n ∧ b < n ∧ dist a b < s)
      (fun s w => decide (((s + 4 * eps * Real.sqrt nf : ℝ) : WithTop ℝ) ≤ w)) where
  symm := by
    rintro s a b ⟨h1, h2, h3⟩
    exact ⟨h2, h1, by rw [dist_symm (fun q i => hd i q)]; exact h3⟩
  search := by
    intro k c r u hk hrk hc hj hu
    obtain ⟨c', tq, e1, hp1, hi1, hb1, _, hbox1, _⟩ :=
      make_float eps he x policy (max 40 (Nat.sqrt c.length)) 0 nf hpol vmax vlowest c
    have mq : ∀ i, i ∈ tq.indices ↔ i ∈ c := fun i => by rw [hi1]; exact hp1.mem_iff
    have ok := realEnv_ok (heap := heap) (S := UF.State) (c := 2 * eps) (by linarith) (by rw [hb1]; exact tightBound_length ..)
      hb hbox1 hbox hd (cand := outside dist r k) (fun a b d h => (outside_spec h).2)
      (offer := (ufEnv (floatEnv heap 1) (fun a b => some (dist' dist a b)) k).offer)
      (Good := fun u => UF.SInv n u r)
      (fun q _ u hu b b' i hi h => outside_offer heap r hk (fun i hi => (ht i).1 hi) 1 q u hu b b' i hi h)
    have hkc : k ∈ c := (hc k).2 ⟨hk, hrk⟩
    obtain ⟨j, hj, hrj⟩ := hj
    rcases dualSearch_ok ok hu with ⟨u', e, h1, h2, h3, h4, h5, h6⟩ | ⟨_, h2⟩
    · obtain ⟨hne, hw⟩ := outside_spec h5
      have hec := (hc e.1).1 ((mq e.1).1 h3)
      refine ⟨c', tq, u', e, e1, fun i => hp1.mem_iff, h1, h2, ?_, hw⟩
      refine { u_lt := hec.1, v_lt := (ht _).1 h4, ru := hec.2,
               rv := fun h => hne (by rw [hrk, h]), closed := ?_ }
      rintro s hbad a b ⟨ha, hb, hab⟩ hra
      by_contra hrb
      have h7 := h6 a ((mq a).2 ((hc a).2 ⟨ha, hra⟩)) b ((ht b).2 hb) (dist' dist a b)
        (by unfold outside; rw [if_neg (by rw [hrk]; exact fun h => hrb h.symm)])
      have h8 := (of_decide_eq_true hbad).trans h7
      simp only [dist'] at h8
      have h9 : s + 4 * eps * Real.sqrt nf ≤ dist a b + 2 * (2 * eps) * Real.sqrt nf := by exact_mod_cast h8
      linarith
    · exfalso
      have := h2 k ((mq k).2 hkc) j ((ht j).2 hj) (dist' dist k j)
        (by unfold outside; rw [if_neg (by rw [hrk]; exact fun h => hrj h.symm)])
      exact absurd this (not_le.2 (WithTop.coe_lt_top (dist k j + 2 * (2 * eps) * Real.sqrt nf)))

/-- Any number of neighbours per query. -/
theorem dualSetting_many (heap : Heap (WithTop ℝ)) (he : 0 ≤ eps) {k0 : Nat} (hk1 : 1 ≤ k0) (hk2 : k0 < 2 ^ 64)
    (hpol : ∀ idx d box, policy idx d box < nf) (ht : ∀ i, i ∈ t.indices ↔ i < n) :
    DualSetting (queryTree (eqEps eps) x policy nf vmax vlowest) (floatEnv heap k0)
      (fun a b => some (dist' dist a b)) t n (dist' dist)
      (fun (_ : Unit) _ _ => False) (fun _ _ => false) where
  symm := fun _ _ _ h => h
  search := by
    intro k c r u hk hrk hc hj hu
    obtain ⟨c', tq, e1, hp1, hi1, _⟩ :=
      make_float eps he x policy (max 40 (Nat.sqrt c.length)) 0 nf hpol vmax vlowest c
    have mq : ∀ i, i ∈ tq.indices ↔ i ∈ c := fun i => by rw [hi1]; exact hp1.mem_iff
    have ok : OkMany (ufEnv (floatEnv heap k0) (fun a b => some (dist' dist a b)) k) tq t (outside dist r k)
        (fun u => UF.SInv n u r) :=
      ⟨hk1, hk2, fun _ => le_top,
        fun q _ u hu b b' i hi h => outside_offer heap r hk (fun i hi => (ht i).1 hi) k0 q u hu b b' i hi h⟩
    have hkc : k ∈ c := (hc k).2 ⟨hk, hrk⟩
    obtain ⟨j, hj, hrj⟩ := hj
    rcases dualSearch_many ok hu with ⟨u', e, h1, h2, h3, h4, h5⟩ | ⟨_, h2⟩
    · obtain ⟨hne, hw⟩ := outside_spec h5
      have hec := (hc e.1).1 ((mq e.1).1 h3)
      exact ⟨c', tq, u', e, e1, fun i => hp1.mem_iff, h1, h2,
        { u_lt := hec.1, v_lt := (ht _).1 h4, ru := hec.2, rv := fun h => hne (by rw [hrk, h]),
          closed := fun _ hb => by cases hb }, hw⟩
    · exfalso
      have := h2 k ((mq k).2 hkc) j ((ht j).2 hj)
      unfold outside at this
      rw [if_neg (by rw [hrk]; exact fun h => hrj h.symm)] at this
      cases this

end

/-- **C72.** `make_tree_2` on floating data, any number of neighbours `k ≥ 1` and any iteration orders of
the hash maps: it terminates after at most `log2 n` rounds and returns a spanning tree whose edges are
weighted with the distances of their end points. -/
theorem C72_spanning_tree (heap : Heap (WithTop ℝ)) (n : Nat) (hn : 0 < n) (eps : ℝ) (he : 0 ≤ eps) (nf : Nat)
    (x : Nat → Nat → ℝ) (dist : Nat → Nat → ℝ)
    (hd : ∀ a b, euclidean (row nf (x a)) (row nf (x b)) = some (dist a b))
    (policy qpolicy : List Nat → Nat → Box ℝ → Nat) (bucketSize maxDepth : Nat)
    (hpol : ∀ idx d box, policy idx d box < nf) (hqpol : ∀ idx d box, qpolicy idx d box < nf)
    (vmax vlowest : ℝ) (ord : Orders (WithTop ℝ)) (hord : ord.Valid) (k : Nat) (hk : 1 ≤ k) (hk2 : k < 2 ^ 64) :
    ∃ idx' t, ∃ T : List (Nat × Nat × ℝ),
      make (eqEps eps) x policy bucketSize maxDepth nf vmax vlowest (List.range n) = some (idx', t) ∧
      (∀ fuel, Nat.log 2 n + 1 ≤ fuel →
        makeTree2 (queryTree (eqEps eps) x qpolicy nf vmax vlowest) (floatEnv heap k) x
          (fun v w => ((|v - w| : ℝ) : WithTop ℝ)) (dist' dist) t ord n fuel = some (T.map finite)) ∧
      IsSpanningTree n T ∧ (∀ e ∈ T, euclidean (row nf (x e.1)) (row nf (x e.2.1)) = some e.2.2) := by
  obtain ⟨idx', t, e, hp, hi, hb, _, hbox, _⟩ :=
    make_float eps he x policy bucketSize maxDepth nf hpol vmax vlowest (List.range n)
  have ht : ∀ i, i ∈ t.indices ↔ i < n := fun i => by rw [hi, hp.mem_iff, List.mem_range]
  have hs := dualSetting_many (x := x) (dist := dist) (vmax := vmax) (vlowest := vlowest) heap he hk hk2 hqpol ht
  obtain ⟨f0, f', e0, e1, hT, hw, _⟩ := dualLoop_tree hs hn hord (Nat.log 2 n + 1) (by omega)
  obtain ⟨core, ec⟩ := coreDistances_some (x := x) (gap := fun v w : ℝ => ((|v - w| : ℝ) : WithTop ℝ))
    (dist := dist' dist) (inf := (⊤ : WithTop ℝ)) hk hk2 t n
  have hmap := finite_reweigh hw
  refine ⟨idx', t, f'.mst.map (reweigh dist), e, fun fuel hf => ?_, spanningTree_reweigh hT, ?_⟩
  · rw [← hmap]
    have e2 := dualLoop_mono fuel 0 f0 f' hf e1
    have ec' : coreDistances x (fun v w : ℝ => ((|v - w| : ℝ) : WithTop ℝ)) (dist' dist) (floatEnv heap k).inf t n
        (floatEnv heap k).capacity = some core := ec
    simp only [makeTree2, e0, ec', Option.bind_eq_bind, Option.bind_some, e2]
  · intro e he
    obtain ⟨e', _, rfl⟩ := List.mem_map.1 he
    exact hd _ _

/-- **C72**, one neighbour: the tree is minimal up to `4 * eps * sqrt n_features` per edge, `eps` being
the tolerance with which values are compared while the trees are built. -/
theorem C72_minimal (heap : Heap (WithTop ℝ)) (n : Nat) (hn : 0 < n) (eps : ℝ) (he : 0 ≤ eps) (nf : Nat)
    (x : Nat → Nat → ℝ) (dist : Nat → Nat → ℝ)
    (hd : ∀ a b, euclidean (row nf (x a)) (row nf (x b)) = some (dist a b))
    (policy qpolicy : List Nat → Nat → Box ℝ → Nat) (bucketSize maxDepth : Nat)
    (hpol : ∀ idx d box, policy idx d box < nf) (hqpol : ∀ idx d box, qpolicy idx d box < nf)
    (vmax vlowest : ℝ) (ord : Orders (WithTop ℝ)) (hord : ord.Valid) :
    ∃ idx' t, ∃ T : List (Nat × Nat × ℝ),
      make (eqEps eps) x policy bucketSize maxDepth nf vmax vlowest (List.range n) = some (idx', t) ∧
      (∀ fuel, Nat.log 2 n + 1 ≤ fuel →
        makeTree2 (queryTree (eqEps eps) x qpolicy nf vmax vlowest) (floatEnv heap 1) x
          (fun v w => ((|v - w| : ℝ) : WithTop ℝ)) (dist' dist) t ord n fuel = some (T.map finite)) ∧
      IsSpanningTree n T ∧ (∀ e ∈ T, euclidean (row nf (x e.1)) (row nf (x e.2.1)) = some e.2.2) ∧
      ∀ S : List (Nat × Nat × ℝ), IsSpanningTree n S →
        (∀ e ∈ S, euclidean (row nf (x e.1)) (row nf (x e.2.1)) = some e.2.2) →
        total T ≤ total S + (n - 1 : ℕ) * (4 * eps * Real.sqrt nf) := by
  obtain ⟨idx', t, e, hp, hi, hb, _, hbox, _⟩ :=
    make_float eps he x policy bucketSize maxDepth nf hpol vmax vlowest (List.range n)
  have ht : ∀ i, i ∈ t.indices ↔ i < n := fun i => by rw [hi, hp.mem_iff, List.mem_range]
  have hs := dualSetting_one (vmax := vmax) (vlowest := vlowest) heap he hd hqpol
    (by rw [hb]; exact tightBound_length ..) hbox ht
  obtain ⟨f0, f', e0, e1, hT, hw, hind⟩ := dualLoop_tree hs hn hord (Nat.log 2 n + 1) (by omega)
  obtain ⟨core, ec⟩ := coreDistances_some (x := x) (gap := fun v w : ℝ => ((|v - w| : ℝ) : WithTop ℝ))
    (dist := dist' dist) (inf := (⊤ : WithTop ℝ)) (k := 1) le_rfl (by norm_num) t n
  have hmap := finite_reweigh hw
  have hT' := spanningTree_reweigh (g := dist) hT
  refine ⟨idx', t, f'.mst.map (reweigh dist), e, fun fuel hf => ?_, hT', ?_, ?_⟩
  · rw [← hmap]
    have e2 := dualLoop_mono fuel 0 f0 f' hf e1
    have ec' : coreDistances x (fun v w : ℝ => ((|v - w| : ℝ) : WithTop ℝ)) (dist' dist) (floatEnv heap 1).inf t n
        (floatEnv heap 1).capacity = some core := ec
    simp only [makeTree2, e0, ec', Option.bind_eq_bind, Option.bind_some, e2]
  · intro e he
    obtain ⟨e', _, rfl⟩ := List.mem_map.1 he
    exact hd _ _
  · intro S hS hSw
    refine total_le (dist := dist) hn (dist_nonneg (x := x) (nf := nf) (fun q i => by rw [dist_symm (fun q i => hd i q)]; exact hd i q)) hT' ?_ hS.vertices hS.connects ?_
    · intro s
      have h1 := indep_reweigh (g := dist) (hind s)
      have h2 : (f'.mst.map (reweigh dist)).filter (fun e => decide (s + 4 * eps * Real.sqrt nf ≤ e.2.2)) =
          (f'.mst.filter (fun a => decide (((s + 4 * eps * Real.sqrt nf : ℝ) : WithTop ℝ) ≤ a.2.2))).map
            (reweigh dist) := by
        rw [List.filter_map]
        congr 1
        refine List.filter_congr ?_
        intro e he
        have := hw e he
        refine decide_eq_decide.2 ?_
        rw [this]
        exact WithTop.coe_le_coe.symm
      rw [h2]
      exact h1
    · intro e he
      have h1 := hSw e he
      rw [hd] at h1
      exact (Option.some.inj h1).le

/-- No samples: the constructor throws. -/
theorem C72_no_samples {K D : Type} [LinearOrder K] [LinearOrder D]
    (build : List Nat → Option (List Nat × KDTree.Tree K)) (env : Env K D UF.State) (x : Nat → Nat → K)
    (gap : K → K → D) (dist : Nat → Nat → D) (t : KDTree.Tree K) (ord : Orders D) (fuel : Nat) :
    makeTree2 build env x gap dist t ord 0 fuel = none := by
  simp [makeTree2, Forest.init]

/-- The tree over a component is a single leaf whatever its size: the default `max_depth` is 0. -/
theorem C72_query_trees_are_leaves {K : Type} [LinearOrder K] (eqv : K → K → Bool) (x : Nat → Nat → K)
    (policy : List Nat → Nat → Box K → Nat) (nf : Nat) (vmax vlowest : K) (c c' : List Nat)
    (t : KDTree.Tree K) (h : queryTree eqv x policy nf vmax vlowest c = some (c', t)) :
    c' = c ∧ ∃ box, t = .leaf c box := by
  unfold queryTree make build at h
  rw [if_neg (by omega)] at h
  simp only [Option.bind_eq_bind, Option.bind_some, Option.some.injEq, Prod.mk.injEq] at h
  obtain ⟨rfl, rfl⟩ := h
  exact ⟨rfl, _, rfl⟩

/-! ### concrete cases -/

/-- Integers stand for floating distances when `inf` is large. -/
def dualEnv (inf : ℤ) (k : Nat) : Env ℤ ℤ UF.State where
  inf := inf
  zero := 0
  add := (· + ·)
  sub := (· - ·)
  minDist := fun s t => (List.zipWith Bounds.segMinDist (segs s) (segs t)).sum
  diam := fun t => ((segs t).map fun s => s.upper - s.lower).sum
  heap := listHeap
  capacity := k
  offer := fun _ _ _ _ => none

/-- `make_tree_2` on samples of the plane with the Manhattan distance. -/
def planeTree (l : List (ℤ × ℤ)) (inf : ℤ) (k fuel : Nat) : Option (List (ClosestPair.Edge ℤ)) := do
  let x := fun i (f : Nat) => if f = 0 then (l.getD i 0).1 else (l.getD i 0).2
  let (_, t) ← make eqExact x (fun _ d _ => d % 2) 1 10 2 1000 (-1000) (List.range l.length)
  makeTree2 (queryTree eqExact x (fun _ d _ => d % 2) 2 1000 (-1000)) (dualEnv inf k) x
    (fun v w => |v - w|) (fun q i => |x i 0 - x q 0| + |x i 1 - x q 1|) t idOrders l.length fuel

/-- Non-vacuity: the minimum spanning tree of five samples, one neighbour. -/
example : planeTree [(0, 0), (1, 0), (10, 2), (4, 2), (7, 3)] 1000 1 3 =
    some [(0, 1, 1), (2, 4, 4), (3, 4, 4), (1, 3, 5)] := by decide +kernel

/-- Two edges at a common end point connect three samples. -/
theorem star_tree {D : Type} (a b c : Nat) (v w : D) (h : [a, b, c].Perm (List.range 3)) :
    IsSpanningTree 3 [(a, b, v), (c, b, w)] := by
  have hm : ∀ i, i ∈ [a, b, c] ↔ i < 3 := fun i => by rw [h.mem_iff, List.mem_range]
  have ha := (hm a).1 (by simp)
  have hb := (hm b).1 (by simp)
  have hc := (hm c).1 (by simp)
  refine isSpanningTree_of (by simp [ha, hb, hc]) (by simp) ?_
  have key : ∀ i, i < 3 → Linked [(a, b, v), (c, b, w)] i b := by
    intro i hi
    have := (hm i).2 hi
    simp only [List.mem_cons, List.not_mem_nil, or_false] at this
    rcases this with rfl | rfl | rfl
    · exact .rel _ _ ⟨v, by simp⟩
    · exact .refl _
    · exact .rel _ _ ⟨w, by simp⟩
  intro i j hi hj
  exact .trans _ b _ (key i hi) (.symm _ _ (key j hj))

/-- **C72**: with three neighbours, the default of `k_nearest_neighbors_`, the tree is not minimal: 19
instead of 10 on three samples of a line. -/
theorem C72_default_counterexample :
    planeTree [(0, 0), (1, 0), (10, 0)] 1000 3 3 = some [(0, 2, 10), (1, 2, 9)] ∧
    planeTree [(0, 0), (1, 0), (10, 0)] 1000 1 3 = some [(0, 1, 1), (2, 1, 9)] ∧
    IsSpanningTree 3 [(0, 1, (1 : ℤ)), (2, 1, 9)] :=
  ⟨by decide +kernel, by decide +kernel, star_tree _ _ _ _ _ (by decide)⟩

/-- **C72**: on integral data, whose infinity is 0, the tree is not minimal even with one neighbour: 18
instead of 15. -/
theorem C72_integral_counterexample :
    planeTree [(4, 9), (9, 7), (4, 1)] 0 1 3 = some [(0, 1, 7), (2, 1, 11)] ∧
    planeTree [(4, 9), (9, 7), (4, 1)] 1000 1 3 = some [(0, 1, 7), (2, 0, 8)] ∧
    IsSpanningTree 3 [(1, 0, (7 : ℤ)), (2, 0, 8)] :=
  ⟨by decide +kernel, by decide +kernel, star_tree _ _ _ _ _ (by decide)⟩

/-- **C72**: no neighbours, undefined behaviour. -/
theorem C72_zero_neighbours : planeTree [(4, 9), (9, 7), (4, 1)] 1000 0 3 = none := by decide +kernel

/-- A case of `C72_minimal` and `C72_spanning_tree`: seven samples of a curve in the plane. -/
noncomputable def curve (i f : Nat) : ℝ := (i : ℝ) * i + f

theorem curve_dist (a b : Nat) : euclidean (row 2 (curve a)) (row 2 (curve b)) = some (Real.sqrt
    (List.zipWith (fun u v => (u - v) * (u - v)) (row 2 (curve a)) (row 2 (curve b))).sum) :=
  euclidean_eq (by simp [row])

example := C72_minimal listHeap 7 (by norm_num) (1 / 8) (by norm_num) 2 curve _ curve_dist (fun _ d _ => d % 2)
  (fun _ d _ => d % 2) 1 10 (fun _ d _ => Nat.mod_lt _ (by norm_num)) (fun _ d _ => Nat.mod_lt _ (by norm_num))
  1000 (-1000) ⟨fun _ l => l.reverse, fun _ l => l⟩
  ⟨fun _ l => List.reverse_perm l, fun _ l => .refl l⟩

example := C72_spanning_tree listHeap 7 (by norm_num) (1 / 8) (by norm_num) 2 curve _ curve_dist (fun _ d _ => d % 2)
  (fun _ d _ => d % 2) 1 10 (fun _ d _ => Nat.mod_lt _ (by norm_num)) (fun _ d _ => Nat.mod_lt _ (by norm_num))
  1000 (-1000) ⟨fun _ l => l.reverse, fun _ l => l⟩
  ⟨fun _ l => List.reverse_perm l, fun _ l => .refl l⟩ 3 (by norm_num) (by norm_num)

end Verif.Boruvka
