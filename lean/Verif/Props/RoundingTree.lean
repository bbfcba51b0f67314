import Verif.Props.Rounding
import Verif.Props.Boruvka

/-
Property C78: Borůvka's algorithm and the core distances on floating data with every operation
rounded.
-/

namespace Verif.Rounding

open Verif.KDTree Verif.Search Verif.Buffer Verif.Sorting Verif.Boruvka Verif.Graph Verif.ClosestPair
  Verif.Rank

set_option linter.unusedSectionVars false

variable {p : Nat}

theorem distsR_comm (R : Rounding p) (o : Order) (x : Nat → Nat → ℝ) (i j : Nat) :
    distsR R o x i j = distsR R o x j i := distR_comm R o _ _

theorem distsR_nonneg (R : Rounding p) (o : Order) (x : Nat → Nat → ℝ) (i j : Nat) :
    0 ≤ distsR R o x i j := distR_nonneg R o _ _

/-- What rounding and the equality tolerance may cost on one computed distance. -/
theorem goodTree_R (R : Rounding p) (hp : 1 ≤ p) {eps : ℝ} (he : 0 ≤ eps) {nf n : Nat}
    {x : Nat → Nat → ℝ} {o : Order} (ho : o.Sums nf) {t : KDTree.Tree ℝ}
    (hs : t.SplitBy (fun a i p' => x i a ≤ x p' a + 2 * (eps * (1 + unit p)))
      (fun a p' i => x p' a ≤ x i a + 2 * (eps * (1 + unit p)))) (ha : t.AxesLt nf)
    (hv : ∀ i ∈ t.indices, i < n) :
    GoodTree x x (gapR R) (distsR R o x) n
      (fun d d' => d' ≤ max d ((1 + unit p) ^ 2 * (d + 2 * eps))) t where
  valid := hv
  refl := fun d => le_max_left _ _
  prune := by
    refine ⟨_, _, splitBy_axes hs ha, ?_⟩
    intro q r rep
    refine PruneOk.at (pruneOk_R R hp he (o := fun _ => o) (fun _ => ho) ?_)
    intro i d h
    split at h
    · simp at h
    · simp only [candAll, Option.some.injEq] at h
      rw [← h, distsR]

theorem goodTree_sep (R : Rounding p) (hp : 1 ≤ p) {nf n : Nat}
    {x : Nat → Nat → ℝ} {o : Order} (ho : o.Sums nf) {t : KDTree.Tree ℝ}
    (hs : t.SplitBy (fun a i p' => x i a ≤ x p' a + 2 * 0)
      (fun a p' i => x p' a ≤ x i a + 2 * 0)) (ha : t.AxesLt nf)
    (hv : ∀ i ∈ t.indices, i < n) :
    GoodTree x x (gapR R) (distsR R o x) n Eq t where
  valid := hv
  refl := fun d => rfl
  prune := by
    refine ⟨_, _, splitBy_axes hs ha, ?_⟩
    intro q r rep
    refine PruneOk.at (pruneOk_sep (gapSound_R R hp (o := fun _ => o) (fun _ => ho)) ?_)
    intro i d h
    split at h
    · simp at h
    · simp only [candAll, Option.some.injEq] at h
      rw [← h, distsR]

theorem make_R (R : Rounding p) {eps : ℝ} (he : 0 ≤ eps) (nf : Nat) (x : Nat → Nat → ℝ)
    (policy : List Nat → Nat → Box ℝ → Nat) (bucketSize maxDepth : Nat)
    (hpol : ∀ idx d box, policy idx d box < nf) (vmax vlowest : ℝ) (idx : List Nat) :
    ∃ idx' t, make (eqR R eps) x policy bucketSize maxDepth nf vmax vlowest idx = some (idx', t) ∧
      idx'.Perm idx ∧ t.indices = idx' ∧
      t.SplitBy (fun a i p' => x i a ≤ x p' a + 2 * (eps * (1 + unit p)))
        (fun a p' i => x p' a ≤ x i a + 2 * (eps * (1 + unit p))) ∧ t.AxesLt nf := by
  obtain ⟨idx', t, e, hpm, hi, _, hs, _, ha, _⟩ :=
    make_tol (goodEq_eqR R he) (eps * (1 + unit p))
      (mul_nonneg he (by linarith [one_le_f (p := p)])) x
      (fun _ _ _ h => eqR_tol R h) policy bucketSize maxDepth nf hpol vmax vlowest idx
  exact ⟨idx', t, e, hpm, hi, hs, ha⟩

theorem make_sep (R : Rounding p) {eps : ℝ} (he : 0 ≤ eps) (nf : Nat) (x : Nat → Nat → ℝ)
    (hsep : ∀ a i j, x i a = x j a ∨ eps < |R.rnd (x j a - x i a)|)
    (policy : List Nat → Nat → Box ℝ → Nat) (bucketSize maxDepth : Nat)
    (hpol : ∀ idx d box, policy idx d box < nf) (vmax vlowest : ℝ) (idx : List Nat) :
    ∃ idx' t, make (eqR R eps) x policy bucketSize maxDepth nf vmax vlowest idx = some (idx', t) ∧
      idx'.Perm idx ∧ t.indices = idx' ∧
      t.SplitBy (fun a i p' => x i a ≤ x p' a + 2 * 0) (fun a p' i => x p' a ≤ x i a + 2 * 0) ∧
      t.AxesLt nf := by
  obtain ⟨idx', t, e, hpm, hi, _, hs, _, ha, _⟩ :=
    make_tol (goodEq_eqR R he) 0 (le_refl _) x (fun a i j h => by
      rcases hsep a i j with h' | h'
      · simp [h']
      · simp only [eqR, decide_eq_true_eq] at h
        exact absurd h (not_le.2 h')) policy bucketSize maxDepth nf hpol vmax vlowest idx
  exact ⟨idx', t, e, hpm, hi, hs, ha⟩

/-- Borůvka's algorithm on any good tree that loses at most a factor and an amount per distance. -/
theorem makeTree_near {x : Nat → Nat → ℝ} {gap : ℝ → ℝ → ℝ} {dist : Nat → Nat → ℝ} {n : Nat}
    (hn : 0 < n) {near : ℝ → ℝ → Prop} {t : KDTree.Tree ℝ} (ht : GoodTree x x gap dist n near t)
    (hall : ∀ i, i < n → i ∈ t.indices) (hsymm : ∀ a b, dist a b = dist b a)
    (hnn : ∀ a b, 0 ≤ dist a b) {c slack : ℝ} (hc : 0 < c)
    (hnear : ∀ d d', 0 ≤ d → near d d' → d' ≤ c * (d + slack)) {inf : ℝ}
    (hinf : ∀ q i, q < n → i < n → dist q i < inf) {ord : Orders ℝ} (hord : ord.Valid) {k : Nat}
    (hk : k ≤ 1) {fuel : Nat} (hfuel : Nat.log 2 n < fuel) :
    ∃ T, makeTree x gap dist inf t ord n k fuel = some T ∧
      IsSpanningTree n T ∧ (∀ e ∈ T, e.2.2 = dist e.1 e.2.1) ∧
      ∀ S : List (Edge ℝ), (∀ e ∈ S, e.1 < n ∧ e.2.1 < n) → Connects n S →
        (∀ e ∈ S, e.2.2 = dist e.1 e.2.1) → total T ≤ c * (total S + (n - 1 : ℕ) * slack) := by
  have hs : Setting x gap dist plainWeight dist inf t n near (fun _ _ => False)
      (fun (s : ℝ) a b => a < n ∧ b < n ∧ dist a b < s)
      (fun s w => decide (c * (s + slack) ≤ w)) := by
    refine ⟨ht, hall, fun _ _ _ _ => rfl,
      fun _ k hk hr _ => ⟨k, hk, hr, fun i hi _ _ => hinf k i hk hi⟩, ?_, ?_, ?_⟩
    · rintro s a b ⟨h1, h2, h3⟩
      exact ⟨h2, h1, by rw [hsymm]; exact h3⟩
    · rintro s a b ⟨h1, h2, _⟩
      exact ⟨h1, h2⟩
    · rintro s w q i j d' _ _ _ _ hb h1 h2 h3 ⟨_, _, h4⟩
      have h5 := of_decide_eq_true hb
      have h6 := hnear _ _ (hnn q j) h2
      have h7 : c * (dist q j + slack) < c * (s + slack) :=
        mul_lt_mul_of_pos_left (by linarith) hc
      linarith
  obtain ⟨f0, f', e0, e1, hT, hw, hind⟩ := makeLoop_tree hs hn (fun _ _ h => h.elim) hord fuel hfuel
  refine ⟨f'.mst, ?_, hT, hw, ?_⟩
  · simp only [makeTree, e0, Option.bind_eq_bind, Option.bind_some, if_neg (by omega : ¬ k > 1), e1]
  · intro S hSv hSc hSw
    exact total_le_scaled hn hc hT hind hSc (fun e he => by rw [hSw e he]; exact hnn _ _)
      (fun s e he h => Or.inr ⟨(hSv e he).1, (hSv e he).2, by rw [← hSw e he]; exact h⟩)

theorem near_R {eps : ℝ} (he : 0 ≤ eps) (d d' : ℝ) (hd : 0 ≤ d)
    (h : d' ≤ max d ((1 + unit p) ^ 2 * (d + 2 * eps))) :
    d' ≤ (1 + unit p) ^ 2 * (d + 2 * eps) := by
  refine h.trans (max_le ?_ (le_refl _))
  have hf : 1 ≤ (1 + unit p) ^ 2 := one_le_pow₀ one_le_f
  nlinarith [mul_nonneg (sub_nonneg.2 hf) hd, mul_nonneg (by linarith : 0 ≤ (1 + unit p) ^ 2) he]

/-- **C78.** With every operation rounded, `make_tree` (one nearest neighbour) terminates within
`log2 n` rounds and returns a spanning tree weighted with the computed distances; its weight exceeds
that of any other connecting set of edges by at most the factor `(1 + u) ^ 2` and `2 * eps` per edge. -/
theorem C78_spanning_tree (R : Rounding p) (hp : 1 ≤ p) (n : Nat) (hn : 0 < n) (eps : ℝ) (he : 0 ≤ eps)
    (nf : Nat) (x : Nat → Nat → ℝ) (o : Order) (ho : o.Sums nf)
    (policy : List Nat → Nat → Box ℝ → Nat) (bucketSize maxDepth : Nat)
    (hpol : ∀ idx d box, policy idx d box < nf) (vmax vlowest inf : ℝ)
    (hinf : ∀ q i, q < n → i < n → distsR R o x q i < inf)
    (ord : Orders ℝ) (hord : ord.Valid) (k : Nat) (hk : k ≤ 1) :
    ∃ idx' t T, make (eqR R eps) x policy bucketSize maxDepth nf vmax vlowest (List.range n) =
        some (idx', t) ∧
      (∀ fuel, Nat.log 2 n + 1 ≤ fuel →
        makeTree x (gapR R) (distsR R o x) inf t ord n k fuel = some T) ∧
      IsSpanningTree n T ∧ (∀ e ∈ T, e.2.2 = distsR R o x e.1 e.2.1) ∧
      ∀ S : List (Edge ℝ), (∀ e ∈ S, e.1 < n ∧ e.2.1 < n) → Connects n S →
        (∀ e ∈ S, e.2.2 = distsR R o x e.1 e.2.1) →
        total T ≤ (1 + unit p) ^ 2 * (total S + (n - 1 : ℕ) * (2 * eps)) := by
  obtain ⟨idx', t, e, hpm, hi, hs, ha⟩ :=
    make_R R he nf x policy bucketSize maxDepth hpol vmax vlowest (List.range n)
  have hmem : ∀ i, i ∈ t.indices ↔ i < n := fun i => by rw [hi, hpm.mem_iff, List.mem_range]
  obtain ⟨T, h1, h2⟩ := makeTree_near hn (goodTree_R R hp he ho hs ha (fun i h => (hmem i).1 h))
    (fun i h => (hmem i).2 h) (distsR_comm R o x) (distsR_nonneg R o x)
    (pow_pos (by linarith [one_le_f (p := p)]) 2) (near_R he) hinf hord hk (Nat.lt_succ_self _)
  exact ⟨idx', t, T, e, fun fuel hf => makeTree_mono hf h1, h2⟩

/-- **C78**, data whose coordinates on each axis are equal or have a computed difference above `eps`:
a minimum spanning tree for the computed distances, exactly. -/
theorem C78_minimal_separated (R : Rounding p) (hp : 1 ≤ p) (n : Nat) (hn : 0 < n) (eps : ℝ)
    (he : 0 ≤ eps) (nf : Nat) (x : Nat → Nat → ℝ) (o : Order) (ho : o.Sums nf)
    (hsep : ∀ a i j, x i a = x j a ∨ eps < |R.rnd (x j a - x i a)|)
    (policy : List Nat → Nat → Box ℝ → Nat) (bucketSize maxDepth : Nat)
    (hpol : ∀ idx d box, policy idx d box < nf) (vmax vlowest inf : ℝ)
    (hinf : ∀ q i, q < n → i < n → distsR R o x q i < inf)
    (ord : Orders ℝ) (hord : ord.Valid) (k : Nat) (hk : k ≤ 1) :
    ∃ idx' t T, make (eqR R eps) x policy bucketSize maxDepth nf vmax vlowest (List.range n) =
        some (idx', t) ∧
      (∀ fuel, Nat.log 2 n + 1 ≤ fuel →
        makeTree x (gapR R) (distsR R o x) inf t ord n k fuel = some T) ∧
      IsSpanningTree n T ∧ (∀ e ∈ T, e.2.2 = distsR R o x e.1 e.2.1) ∧
      ∀ S : List (Edge ℝ), (∀ e ∈ S, e.1 < n ∧ e.2.1 < n) → Connects n S →
        (∀ e ∈ S, e.2.2 = distsR R o x e.1 e.2.1) → total T ≤ total S := by
  obtain ⟨idx', t, e, hpm, hi, hs, ha⟩ :=
    make_sep R he nf x hsep policy bucketSize maxDepth hpol vmax vlowest (List.range n)
  have hmem : ∀ i, i ∈ t.indices ↔ i < n := fun i => by rw [hi, hpm.mem_iff, List.mem_range]
  obtain ⟨T, h1, h2, h3, h4⟩ := makeTree_near hn (goodTree_sep R hp ho hs ha (fun i h => (hmem i).1 h))
    (fun i h => (hmem i).2 h) (distsR_comm R o x) (distsR_nonneg R o x) (c := 1) (slack := 0)
    one_pos (fun d d' _ h => by rw [← h]; linarith) hinf hord hk (Nat.lt_succ_self _)
  refine ⟨idx', t, T, e, fun fuel hf => makeTree_mono hf h1, h2, h3, fun S a1 a2 a3 => ?_⟩
  have := h4 S a1 a2 a3
  simpa using this

/-- The total of the true distances of some edges. -/
noncomputable def trueTotal (nf : Nat) (x : Nat → Nat → ℝ) (T : List (Edge ℝ)) : ℝ :=
  (T.map (fun e => trueDist nf (x e.1) (x e.2.1))).sum

theorem trueDist_comm (nf : Nat) (u v : Nat → ℝ) : trueDist nf u v = trueDist nf v u := by
  unfold trueDist
  congr 2
  refine List.map_congr_left fun k _ => ?_
  ring

theorem total_true (R : Rounding p) {nf : Nat} {o : Order} (ho : o.Sums nf) (x : Nat → Nat → ℝ)
    (T : List (Edge ℝ)) (hT : ∀ e ∈ T, e.2.2 = distsR R o x e.1 e.2.1) :
    total T ≤ relErr p nf * trueTotal nf x T ∧ trueTotal nf x T ≤ relErr p nf * total T := by
  unfold total trueTotal
  induction T with
  | nil => simp
  | cons e T ih =>
    have h1 := ih (fun e he => hT e (by simp [he]))
    have h2 := C77_distance_error R ho (x e.2.1) (x e.1)
    have h3 := hT e (by simp)
    unfold distsR at h3
    rw [trueDist_comm, ← h3] at h2
    simp only [List.map_cons, List.sum_cons, mul_add]
    exact ⟨add_le_add h2.1 h1.1, add_le_add h2.2 h1.2⟩

/-- **C78**, in true distances: the tree that the rounded computation returns is nearly a minimum
spanning tree of the true distances. -/
theorem C78_true (R : Rounding p) (hp : 1 ≤ p) (n : Nat) (hn : 0 < n) (eps : ℝ) (he : 0 ≤ eps)
    (nf : Nat) (x : Nat → Nat → ℝ) (o : Order) (ho : o.Sums nf)
    (policy : List Nat → Nat → Box ℝ → Nat) (bucketSize maxDepth : Nat)
    (hpol : ∀ idx d box, policy idx d box < nf) (vmax vlowest inf : ℝ)
    (hinf : ∀ q i, q < n → i < n → distsR R o x q i < inf)
    (ord : Orders ℝ) (hord : ord.Valid) (k : Nat) (hk : k ≤ 1) :
    ∃ idx' t T, make (eqR R eps) x policy bucketSize maxDepth nf vmax vlowest (List.range n) =
        some (idx', t) ∧
      (∀ fuel, Nat.log 2 n + 1 ≤ fuel →
        makeTree x (gapR R) (distsR R o x) inf t ord n k fuel = some T) ∧
      IsSpanningTree n T ∧
      ∀ S : List (Edge ℝ), (∀ e ∈ S, e.1 < n ∧ e.2.1 < n) → Connects n S →
        trueTotal nf x T ≤ relErr p nf * (1 + unit p) ^ 2 *
          (relErr p nf * trueTotal nf x S + (n - 1 : ℕ) * (2 * eps)) := by
  obtain ⟨idx', t, T, e, h1, h2, h3, h4⟩ := C78_spanning_tree R hp n hn eps he nf x o ho policy
    bucketSize maxDepth hpol vmax vlowest inf hinf ord hord k hk
  refine ⟨idx', t, T, e, h1, h2, fun S hSv hSc => ?_⟩
  have hS : ∀ f : Edge ℝ → ℝ, ∀ a b, Linked S a b →
      Linked (S.map (fun e => (e.1, e.2.1, f e))) a b := by
    intro f a b h
    unfold Linked at h ⊢
    refine h.mono ?_
    rintro a b ⟨w, hw⟩
    exact ⟨_, List.mem_map.2 ⟨_, hw, rfl⟩⟩
  have h5 := h4 (S.map (fun e => (e.1, e.2.1, distsR R o x e.1 e.2.1)))
    (by intro e he; obtain ⟨e', he', rfl⟩ := List.mem_map.1 he; exact hSv e' he')
    (fun a b ha hb => hS _ a b (hSc a b ha hb))
    (by intro e he; obtain ⟨e', he', rfl⟩ := List.mem_map.1 he; rfl)
  have h6 := (total_true R ho x T h3).2
  have h7 := (total_true R ho x (S.map (fun e => (e.1, e.2.1, distsR R o x e.1 e.2.1)))
    (by intro e he; obtain ⟨e', he', rfl⟩ := List.mem_map.1 he; rfl)).1
  have e8 : trueTotal nf x (S.map (fun e => (e.1, e.2.1, distsR R o x e.1 e.2.1))) =
      trueTotal nf x S := by
    simp [trueTotal, List.map_map, Function.comp_def]
  rw [e8] at h7
  have hr := relErr_nonneg (p := p) nf
  have hf : (0 : ℝ) ≤ (1 + unit p) ^ 2 := sq_nonneg _
  calc trueTotal nf x T ≤ relErr p nf * total T := h6
    _ ≤ relErr p nf * ((1 + unit p) ^ 2 * _) := mul_le_mul_of_nonneg_left h5 hr
    _ ≤ relErr p nf * ((1 + unit p) ^ 2 * (relErr p nf * trueTotal nf x S + (n - 1 : ℕ) * (2 * eps))) :=
      mul_le_mul_of_nonneg_left (mul_le_mul_of_nonneg_left (by linarith) hf) hr
    _ = _ := by ring

/-! ### core distances -/

/-- The core distance from any good search: fewer than `k` samples are certainly closer. -/
theorem coreDistance_near {D : Type} [LinearOrder D] {x : Nat → Nat → ℝ} {gap : ℝ → ℝ → D}
    {dist : Nat → Nat → D} {n : Nat}
    (hn : 0 < n) {near : D → D → Prop} (hr : ∀ d, near d d) {t : KDTree.Tree ℝ} {q : Nat}
    {L R' : Nat → Nat → Nat → Prop} (hsp : t.SplitBy L R')
    (hpr : PruneOkAt x (x q) gap (candAll (dist q)) L R' near) (inf : D)
    (hp : t.indices.Perm (List.range n)) {k : Nat} (hk : 1 ≤ k) (hk2 : k < 2 ^ 64) :
    ∃ v, coreDistance x gap dist inf t k q = some v ∧ v ∈ (List.range n).map (dist q) ∧
      min k n ≤ (((List.range n).map (dist q)).filter (fun a => decide (a ≤ v))).length ∧
      ∀ P : D → Bool, (∀ a d', P a = true → near a d' → d' < v) →
        (((List.range n).map (dist q)).filter P).length < min k n := by
  obtain ⟨b, kept, es, _, h1, h2, ⟨rest, hr1, hr2⟩, hl, _, hf, _⟩ :=
    search_result_full_at (sim_static x (x q) gap (candAll (dist q))) hr hpr (inf := inf) hk2
      (Or.inl (by omega)) t hsp (fun _ _ => trivial) (Buffer.mk inf k) trivial rfl
  have hpc : (cands (candAll (dist q)) t.indices).Perm (cands (candAll (dist q)) (List.range n)) :=
    List.Perm.filterMap _ hp
  have hall := hr1.trans hpc
  have hcl : (cands (candAll (dist q)) t.indices).length = n := by
    rw [hpc.length_eq, cands_all]; simp
  rw [hcl, capEff_of_pos hk] at hl
  have hne : kept ≠ [] := by
    intro h; rw [h] at hl; simp at hl; omega
  obtain ⟨⟨i, hi⟩, hmax⟩ := hf hne
  have hp2 : (kept.map Prod.snd ++ rest.map Prod.snd).Perm ((List.range n).map (dist q)) := by
    have := hall.map Prod.snd
    rw [cands_all, List.map_append, List.map_map] at this
    exact this
  simp only [id] at hi hmax
  have hmem := List.mem_of_getElem? hi
  have hmem' : b.furthestDistance ∈ kept.map Prod.snd := List.mem_map.2 ⟨_, hmem, rfl⟩
  refine ⟨b.furthestDistance, ?_, hp2.mem_iff.1 (List.mem_append_left _ hmem'), ?_, ?_⟩
  · simp only [coreDistance, es, Option.bind_eq_bind, Option.bind_some]
  · rw [filter_length_of_perm hp2]
    have : (kept.map Prod.snd).filter (fun a => decide (a ≤ b.furthestDistance)) =
        kept.map Prod.snd := by
      rw [List.filter_eq_self]
      intro a ha
      obtain ⟨c, hc, rfl⟩ := List.mem_map.1 ha
      simpa using hmax c hc
    rw [this, List.length_map, hl]
    omega
  · intro P hP
    rw [filter_length_of_perm hp2]
    have h3 : (rest.map Prod.snd).filter P = [] := by
      rw [List.filter_eq_nil_iff]
      intro a ha hPa
      obtain ⟨c, hc, rfl⟩ := List.mem_map.1 ha
      obtain ⟨d', h4, h5⟩ := hr2 _ hmem c hc
      exact absurd (hP _ _ hPa h4) (not_lt.2 h5)
    have h4 : ((kept.map Prod.snd).filter P).length < (kept.map Prod.snd).length := by
      rw [List.length_filter_lt_length_iff_exists]
      exact ⟨_, hmem', fun h => absurd (hP _ _ h (hr _)) (lt_irrefl _)⟩
    rw [h3]
    simp only [List.length_map, hl] at h4
    simpa using h4

/-- **C78**, core distances, separated data: the exact `k`-th smallest of the computed distances. -/
theorem C78_core_separated (R : Rounding p) (hp : 1 ≤ p) (n : Nat) (hn : 0 < n) (eps : ℝ)
    (he : 0 ≤ eps) (nf : Nat) (x : Nat → Nat → ℝ) (o : Order) (ho : o.Sums nf)
    (hsep : ∀ a i j, x i a = x j a ∨ eps < |R.rnd (x j a - x i a)|)
    (policy : List Nat → Nat → Box ℝ → Nat) (bucketSize maxDepth : Nat)
    (hpol : ∀ idx d box, policy idx d box < nf) (vmax vlowest inf : ℝ)
    (k : Nat) (hk : 1 ≤ k) (hk2 : k < 2 ^ 64) :
    ∃ idx' t core, make (eqR R eps) x policy bucketSize maxDepth nf vmax vlowest (List.range n) =
        some (idx', t) ∧
      coreDistances x (gapR R) (distsR R o x) inf t n k = some core ∧ core.length = n ∧
      ∀ q, q < n → ∃ v, core[q]? = some v ∧
        IsKth (min k n) ((List.range n).map (distsR R o x q)) v := by
  obtain ⟨idx', t, e, hpm, hi, hs, ha⟩ :=
    make_sep R he nf x hsep policy bucketSize maxDepth hpol vmax vlowest (List.range n)
  obtain ⟨core, h1, h2, h3⟩ := coreDistances_of (P := fun q v =>
      IsKth (min k n) ((List.range n).map (distsR R o x q)) v) (fun q _ => by
    obtain ⟨v, a1, a2, a3, a4⟩ := coreDistance_near hn (fun _ => rfl) (splitBy_axes hs ha)
      (pruneOk_sep (gapSound_R R hp (o := fun _ => o) (fun _ => ho))
        (fun i d h => by
          simp only [candAll, Option.some.injEq] at h
          rw [← h, distsR])).at inf (dist := distsR R o x) (by rw [hi]; exact hpm) hk hk2 (q := q)
    exact ⟨v, a1, a2, a3, a4 _ (fun a d' h h' => by rw [← h']; simpa using h)⟩)
  exact ⟨idx', t, core, e, h1, h2, h3⟩

/-- **C78**, core distances, any data: at least `k` computed distances are at most the core distance
and fewer than `k` are certainly below it, after the factor `(1 + u) ^ 2` and `2 * eps`. -/
theorem C78_core (R : Rounding p) (hp : 1 ≤ p) (n : Nat) (hn : 0 < n) (eps : ℝ)
    (he : 0 ≤ eps) (nf : Nat) (x : Nat → Nat → ℝ) (o : Order) (ho : o.Sums nf)
    (policy : List Nat → Nat → Box ℝ → Nat) (bucketSize maxDepth : Nat)
    (hpol : ∀ idx d box, policy idx d box < nf) (vmax vlowest inf : ℝ)
    (k : Nat) (hk : 1 ≤ k) (hk2 : k < 2 ^ 64) :
    ∃ idx' t core, make (eqR R eps) x policy bucketSize maxDepth nf vmax vlowest (List.range n) =
        some (idx', t) ∧
      coreDistances x (gapR R) (distsR R o x) inf t n k = some core ∧ core.length = n ∧
      ∀ q, q < n → ∃ v, core[q]? = some v ∧ v ∈ (List.range n).map (distsR R o x q) ∧
        min k n ≤ (((List.range n).map (distsR R o x q)).filter (fun a => a ≤ v)).length ∧
        (((List.range n).map (distsR R o x q)).filter
          (fun a => (1 + unit p) ^ 2 * (a + 2 * eps) < v)).length < min k n := by
  obtain ⟨idx', t, e, hpm, hi, hs, ha⟩ :=
    make_R R he nf x policy bucketSize maxDepth hpol vmax vlowest (List.range n)
  obtain ⟨core, h1, h2, h3⟩ := coreDistances_of (P := fun q v =>
      v ∈ (List.range n).map (distsR R o x q) ∧
        min k n ≤ (((List.range n).map (distsR R o x q)).filter (fun a => a ≤ v)).length ∧
        (((List.range n).map (distsR R o x q)).filter
          (fun a => (1 + unit p) ^ 2 * (a + 2 * eps) < v)).length < min k n) (fun q _ => by
    obtain ⟨v, a1, a2, a3, a4⟩ := coreDistance_near hn (fun d => le_max_left _ _) (splitBy_axes hs ha)
      (pruneOk_R R hp he (o := fun _ => o) (fun _ => ho)
        (fun i d h => by
          simp only [candAll, Option.some.injEq] at h
          rw [← h, distsR])).at inf (dist := distsR R o x) (by rw [hi]; exact hpm) hk hk2 (q := q)
    refine ⟨v, a1, a2, a3, ?_⟩
    refine lt_of_le_of_lt (le_of_eq ?_) (a4 (fun a => decide (0 ≤ a ∧ (1 + unit p) ^ 2 * (a + 2 * eps) < v))
      (fun a d' h h' => ?_))
    · congr 1
      refine List.filter_congr fun a ha => ?_
      obtain ⟨j, _, rfl⟩ := List.mem_map.1 ha
      simp [distsR_nonneg R o x q j]
    · have := of_decide_eq_true h
      exact (near_R he a d' this.1 h').trans_lt this.2)
  exact ⟨idx', t, core, e, h1, h2, h3⟩

/-- Concrete case: five samples on a line in double precision. -/
example (x : Nat → Nat → ℝ) (inf : ℝ)
    (hinf : ∀ q i, q < 5 → i < 5 →
      distsR (away 53 (by norm_num)) (.add (.term 0) (.term 1)) x q i < inf)
    (ord : Orders ℝ) (hord : ord.Valid) :=
  C78_true (away 53 (by norm_num)) (by norm_num) 5 (by norm_num) (epsilon 53) (two_zpow_pos _).le 1 x
    (.add (.term 0) (.term 1)) (by unfold Order.Sums; decide) (fun _ _ _ => 0) 1 10
    (fun _ _ _ => by norm_num) 0 0 inf hinf ord hord 1 (le_refl _)

end Verif.Rounding
