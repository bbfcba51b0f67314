import Verif.Lemmas.Boruvka
import Verif.Props.ClosestPair
import Verif.Spec.Rank

/-
Properties C27-C31: Borůvka's algorithm (datastruct/graph/spanning_tree/BoruvkasAlgorithm.hpp,
`make_tree`) and core distances (CoreDistances.hpp).
-/

namespace Verif.Boruvka

open Verif.KDTree Verif.Buffer Verif.Search Verif.Sorting Verif.Distances Verif.ClosestPair
  Verif.Graph Verif.Rank

set_option linter.unusedSectionVars false

/-! ### from the cut property to minimality -/

/-- Counting argument: the edges of `T` of weight at least `c * (s + slack)` are independent modulo
`R s`, and the edges of `S` of weight below `s` are in `R s`, so `S` has at least as many edges of weight at
least `s`. -/
theorem total_le_scaled {n : Nat} (hn : 0 < n) {R : ℝ → Nat → Nat → Prop}
    {c slack : ℝ} (hc : 0 < c) {T S : List (Edge ℝ)} (hT : IsSpanningTree n T)
    (hind : ∀ s : ℝ, Indep (R s) (T.filter (fun e => decide (c * (s + slack) ≤ e.2.2))))
    (hSc : Connects n S) (hS0 : ∀ e ∈ S, 0 ≤ e.2.2)
    (hSR : ∀ s, ∀ e ∈ S, e.2.2 < s → e.1 = e.2.1 ∨ R s e.1 e.2.1) :
    total T ≤ c * (total S + (n - 1 : ℕ) * slack) := by
  have hlen : T.length = n - 1 := by have := hT.length; omega
  have key : ((T.map (fun e => e.2.2 / c - slack)).sum : ℝ) ≤ (S.map (fun e => e.2.2)).sum := by
    refine sum_le_of_counts (n - 1) _ _ (by simp [hlen]) ?_ ?_
    · intro b hb
      obtain ⟨e, he, rfl⟩ := List.mem_map.1 hb
      exact hS0 e he
    · intro s
      have h1 := indep_length_le hn (T.filter (fun e => decide (c * (s + slack) ≤ e.2.2)))
        (S.filter (fun e => decide (s ≤ e.2.2)))
        (fun e he => hT.vertices e (List.mem_filter.1 he).1) (hind s) (by
          intro a b ha hb
          have h2 := hSc a b ha hb
          unfold Linked at h2
          refine Relation.EqvGen.rec (motive := fun a b _ => Conn _ _ a b) ?_ ?_ ?_ ?_ h2
          · rintro a b ⟨w, hw⟩
            by_cases hsw : s ≤ w
            · exact Conn.edge (w := w) (List.mem_filter.2 ⟨hw, by simpa using hsw⟩)
            · rcases hSR s _ hw (not_le.1 hsw) with h3 | h3
              · dsimp only at h3
                rw [h3]
                exact Conn.refl b
              · exact Conn.base h3
          · intro a; exact Conn.refl a
          · intro a b _ h; exact h.symm
          · intro a b c _ _ h h'; exact h.trans h')
      rw [List.filter_map, List.length_map, List.filter_map, List.length_map]
      refine le_trans (le_of_eq ?_) (le_trans h1 (le_of_eq ?_))
      · congr 1
        apply List.filter_congr
        intro e _
        simp only [Function.comp]
        congr 1
        exact propext (by rw [le_sub_iff_add_le, le_div_iff₀ hc, mul_comm])
      · rfl
  have h2 : (T.map (fun e => e.2.2 / c - slack)).sum = total T / c - T.length * slack := by
    unfold total
    clear key hlen hind hT
    induction T with
    | nil => simp
    | cons e T ih =>
      simp only [List.map_cons, List.sum_cons, List.length_cons, ih]
      push_cast
      ring
  rw [h2, hlen] at key
  have : (S.map (fun e => e.2.2)).sum = total S := rfl
  rw [this] at key
  rw [mul_comm, ← div_le_iff₀ hc]
  linarith

/-- The counting argument without a factor. -/
theorem total_le_of {n : Nat} (hn : 0 < n) {R : ℝ → Nat → Nat → Prop}
    {slack : ℝ} {T S : List (Edge ℝ)} (hT : IsSpanningTree n T)
    (hind : ∀ s : ℝ, Indep (R s) (T.filter (fun e => decide (s + slack ≤ e.2.2))))
    (hSc : Connects n S) (hS0 : ∀ e ∈ S, 0 ≤ e.2.2)
    (hSR : ∀ s, ∀ e ∈ S, e.2.2 < s → e.1 = e.2.1 ∨ R s e.1 e.2.1) :
    total T ≤ total S + (n - 1 : ℕ) * slack := by
  have := total_le_scaled hn one_pos hT (fun s => by simpa only [one_mul] using hind s) hSc hS0 hSR
  rwa [one_mul] at this

/-- The counting argument with the pairs at distance below `s`. -/
theorem total_le {n : Nat} (hn : 0 < n) {dist : Nat → Nat → ℝ} (hnn : ∀ a b, 0 ≤ dist a b)
    {slack : ℝ} {T S : List (Edge ℝ)} (hT : IsSpanningTree n T)
    (hind : ∀ s : ℝ, Indep (fun a b => a < n ∧ b < n ∧ dist a b < s)
      (T.filter (fun e => decide (s + slack ≤ e.2.2))))
    (hSv : ∀ e ∈ S, e.1 < n ∧ e.2.1 < n) (hSc : Connects n S)
    (hSw : ∀ e ∈ S, dist e.1 e.2.1 ≤ e.2.2) :
    total T ≤ total S + (n - 1 : ℕ) * slack :=
  total_le_of hn hT hind hSc (fun e he => (hnn _ _).trans (hSw e he))
    (fun _ e he h => Or.inr ⟨(hSv e he).1, (hSv e he).2, lt_of_le_of_lt (hSw e he) h⟩)

/-! ### distances -/

theorem dist_symm {nf : Nat} {x : Nat → Nat → ℝ} {dist : Nat → Nat → ℝ}
    (hd : ∀ q i, euclidean (row nf (x i)) (row nf (x q)) = some (dist q i)) (a b : Nat) :
    dist a b = dist b a := by
  have h1 := hd a b
  have h2 := hd b a
  rw [euclidean_eq (by simp [row])] at h1 h2
  rw [← Option.some.inj h1, ← Option.some.inj h2,
    sum_zipWith_comm (f := fun a b : ℝ => (a - b) * (a - b)) (fun a b => by ring)]

theorem dist_nonneg {nf : Nat} {x : Nat → Nat → ℝ} {dist : Nat → Nat → ℝ}
    (hd : ∀ q i, euclidean (row nf (x i)) (row nf (x q)) = some (dist q i)) (a b : Nat) :
    0 ≤ dist a b := by
  have h1 := hd a b
  rw [euclidean_eq (by simp [row])] at h1
  rw [← Option.some.inj h1]
  exact Real.sqrt_nonneg _

/-! ### fuel -/

theorem makeLoop_mono {K D : Type} [LinearOrder K] [LinearOrder D] {x : Nat → Nat → K}
    {gap : K → K → D} {dist : Nat → Nat → D} {weight : Nat → Nat → D → Option D} {inf : D}
    {t : KDTree.Tree K} {ord : Orders D} : ∀ {fuel : Nat} (fuel' round : Nat) (f f' : Forest D),
    fuel ≤ fuel' → makeLoop x gap dist weight inf t ord fuel round f = some f' →
    makeLoop x gap dist weight inf t ord fuel' round f = some f' := by
  intro fuel
  induction fuel with
  | zero => intro fuel' round f f' _ h; simp [makeLoop] at h
  | succ fuel ih =>
    intro fuel' round f f' hle h
    obtain ⟨m, rfl⟩ : ∃ m, fuel' = m + 1 := ⟨fuel' - 1, by omega⟩
    unfold makeLoop at h ⊢
    by_cases h1 : f.comps.length > 1
    · rw [if_pos h1] at h ⊢
      by_cases h2 : f.comps.length = 2
      · rw [if_pos h2] at h ⊢
        cases hs : dualComponentStep x gap dist weight inf t ord round f with
        | none => rw [hs] at h; simp at h
        | some g =>
          rw [hs] at h
          exact ih m (round + 1) g f' (by omega) h
      · rw [if_neg h2] at h ⊢
        cases hs : stepSequential x gap dist weight inf t ord round f with
        | none => rw [hs] at h; simp at h
        | some g =>
          rw [hs] at h
          exact ih m (round + 1) g f' (by omega) h
    · rw [if_neg h1] at h ⊢
      exact h

theorem makeTree_mono {K D : Type} [LinearOrder K] [LinearOrder D] {x : Nat → Nat → K}
    {gap : K → K → D} {dist : Nat → Nat → D} {inf : D} {t : KDTree.Tree K} {ord : Orders D}
    {n k fuel fuel' : Nat} {T : List (Edge D)} (hle : fuel ≤ fuel')
    (h : makeTree x gap dist inf t ord n k fuel = some T) :
    makeTree x gap dist inf t ord n k fuel' = some T := by
  simp only [makeTree, Option.bind_eq_bind] at h ⊢
  cases h0 : (Forest.init n : Option (Forest D)) with
  | none => rw [h0] at h; simp at h
  | some f0 =>
    simp only [h0, Option.bind_some] at h ⊢
    by_cases hk : k > 1
    · rw [if_pos hk] at h ⊢
      cases hc : coreDistances x gap dist inf t n k with
      | none => rw [hc] at h; simp at h
      | some core =>
        simp only [hc, Option.bind_some] at h ⊢
        cases hl : makeLoop x gap dist (mutualReach core) inf t ord fuel 0 f0 with
        | none => rw [hl] at h; simp at h
        | some f' =>
          rw [makeLoop_mono fuel' 0 f0 f' hle hl]
          rw [hl] at h
          exact h
    · rw [if_neg hk] at h ⊢
      cases hl : makeLoop x gap dist plainWeight inf t ord fuel 0 f0 with
      | none => rw [hl] at h; simp at h
      | some f' =>
        rw [makeLoop_mono fuel' 0 f0 f' hle hl]
        rw [hl] at h
        exact h

/-! ### without core distances -/

/-- **C27, C28, C29** on floating data (exact real arithmetic, tree built with the equality tolerance
`eps`), one nearest neighbour.  Whatever the iteration orders of the hash maps, `make_tree`
terminates after at most `log2 n` rounds (the loop condition is evaluated at most `log2 n + 1`
times) and returns a spanning tree, its edges weighted with the distances of their end points.  Its
total weight exceeds that of any connecting set of edges (in particular any spanning tree) by at
most `2 * eps` per edge. -/
theorem makeTree_float (n : Nat) (hn : 0 < n) (eps : ℝ) (he : 0 ≤ eps) (nf : Nat)
    (x : Nat → Nat → ℝ) (dist : Nat → Nat → ℝ)
    (hd : ∀ q i, euclidean (row nf (x i)) (row nf (x q)) = some (dist q i))
    (policy : List Nat → Nat → Box ℝ → Nat) (bucketSize maxDepth : Nat)
    (hpol : ∀ idx d box, policy idx d box < nf) (vmax vlowest inf : ℝ)
    (hinf : ∀ q i, q < n → i < n → dist q i < inf)
    (ord : Orders ℝ) (hord : ord.Valid) (k : Nat) (hk : k ≤ 1) (fuel : Nat)
    (hfuel : Nat.log 2 n < fuel) :
    ∃ idx' t T, make (eqEps eps) x policy bucketSize maxDepth nf vmax vlowest (List.range n) =
        some (idx', t) ∧
      makeTree x (fun v w => |v - w|) dist inf t ord n k fuel = some T ∧
      IsSpanningTree n T ∧ (∀ e ∈ T, e.2.2 = dist e.1 e.2.1) ∧
      ∀ S : List (Edge ℝ), (∀ e ∈ S, e.1 < n ∧ e.2.1 < n) → Connects n S →
        (∀ e ∈ S, e.2.2 = dist e.1 e.2.1) → total T ≤ total S + (n - 1 : ℕ) * (2 * eps) := by
  obtain ⟨idx', t, e, hp, hi, _, ho, _, ha, _⟩ :=
    make_float eps he x policy bucketSize maxDepth nf hpol vmax vlowest (List.range n)
  have hmem : ∀ i, i ∈ t.indices ↔ i < n := fun i => by
    rw [hi, hp.mem_iff, List.mem_range]
  have ht := goodTree_float he hd ho ha (n := n) (fun i h => (hmem i).1 h)
  have hs : Setting x (fun v w => |v - w|) dist plainWeight dist inf t n
      (fun d d' => d' ≤ d + 2 * eps) (fun _ _ => False)
      (fun (s : ℝ) a b => a < n ∧ b < n ∧ dist a b < s)
      (fun s w => decide (s + 2 * eps ≤ w)) := by
    refine ⟨ht, fun i h => (hmem i).2 h, fun _ _ _ _ => rfl,
      fun _ k hk hr _ => ⟨k, hk, hr, fun i hi _ _ => hinf k i hk hi⟩, ?_, ?_, ?_⟩
    · rintro s a b ⟨h1, h2, h3⟩
      exact ⟨h2, h1, by rw [dist_symm hd]; exact h3⟩
    · rintro s a b ⟨h1, h2, _⟩
      exact ⟨h1, h2⟩
    · rintro s w q i j d' _ _ _ _ hb h1 h2 h3 ⟨_, _, h4⟩
      have := of_decide_eq_true hb
      linarith
  obtain ⟨f0, f', e0, e1, hT, hw, hind⟩ := makeLoop_tree hs hn (fun _ _ h => h.elim) hord fuel hfuel
  refine ⟨idx', t, f'.mst, e, ?_, hT, hw, ?_⟩
  · simp only [makeTree, e0, Option.bind_eq_bind, Option.bind_some, if_neg (by omega : ¬ k > 1), e1]
  · intro S hSv hSc hSw
    exact total_le hn (dist_nonneg hd) hT hind hSv hSc (fun e he => (hSw e he).symm.le)

/-- **C27.** `make_tree` (one nearest neighbour) returns a spanning tree weighted with the
distances. -/
theorem C27_spanning_tree (n : Nat) (hn : 0 < n) (eps : ℝ) (he : 0 ≤ eps) (nf : Nat)
    (x : Nat → Nat → ℝ) (dist : Nat → Nat → ℝ)
    (hd : ∀ q i, euclidean (row nf (x i)) (row nf (x q)) = some (dist q i))
    (policy : List Nat → Nat → Box ℝ → Nat) (bucketSize maxDepth : Nat)
    (hpol : ∀ idx d box, policy idx d box < nf) (vmax vlowest inf : ℝ)
    (hinf : ∀ q i, q < n → i < n → dist q i < inf)
    (ord : Orders ℝ) (hord : ord.Valid) (k : Nat) (hk : k ≤ 1) :
    ∃ fuel idx' t T, make (eqEps eps) x policy bucketSize maxDepth nf vmax vlowest (List.range n) =
        some (idx', t) ∧
      makeTree x (fun v w => |v - w|) dist inf t ord n k fuel = some T ∧
      IsSpanningTree n T ∧ (∀ e ∈ T, e.2.2 = dist e.1 e.2.1) := by
  obtain ⟨idx', t, T, h1, h2, h3, h4, _⟩ := makeTree_float n hn eps he nf x dist hd policy bucketSize
    maxDepth hpol vmax vlowest inf hinf ord hord k hk (Nat.log 2 n + 1) (by omega)
  exact ⟨_, idx', t, T, h1, h2, h3, h4⟩

/-- **C28.** The tree is minimal up to `2 * eps` per edge, `eps` being the tolerance with which
floating values are compared while the k-d tree is built. -/
theorem C28_minimal (n : Nat) (hn : 0 < n) (eps : ℝ) (he : 0 ≤ eps) (nf : Nat)
    (x : Nat → Nat → ℝ) (dist : Nat → Nat → ℝ)
    (hd : ∀ q i, euclidean (row nf (x i)) (row nf (x q)) = some (dist q i))
    (policy : List Nat → Nat → Box ℝ → Nat) (bucketSize maxDepth : Nat)
    (hpol : ∀ idx d box, policy idx d box < nf) (vmax vlowest inf : ℝ)
    (hinf : ∀ q i, q < n → i < n → dist q i < inf)
    (ord : Orders ℝ) (hord : ord.Valid) (k : Nat) (hk : k ≤ 1) :
    ∃ fuel idx' t T, make (eqEps eps) x policy bucketSize maxDepth nf vmax vlowest (List.range n) =
        some (idx', t) ∧
      makeTree x (fun v w => |v - w|) dist inf t ord n k fuel = some T ∧
      IsSpanningTree n T ∧ (∀ e ∈ T, e.2.2 = dist e.1 e.2.1) ∧
      ∀ S : List (Edge ℝ), IsSpanningTree n S → (∀ e ∈ S, e.2.2 = dist e.1 e.2.1) →
        total T ≤ total S + (n - 1 : ℕ) * (2 * eps) := by
  obtain ⟨idx', t, T, h1, h2, h3, h4, h5⟩ := makeTree_float n hn eps he nf x dist hd policy
    bucketSize maxDepth hpol vmax vlowest inf hinf ord hord k hk (Nat.log 2 n + 1) (by omega)
  exact ⟨_, idx', t, T, h1, h2, h3, h4, fun S hS hw => h5 S hS.vertices hS.connects hw⟩

/-- **C28** with exact comparisons (`eps = 0`): a minimum spanning tree. -/
theorem C28_minimal_exact (n : Nat) (hn : 0 < n) (nf : Nat)
    (x : Nat → Nat → ℝ) (dist : Nat → Nat → ℝ)
    (hd : ∀ q i, euclidean (row nf (x i)) (row nf (x q)) = some (dist q i))
    (policy : List Nat → Nat → Box ℝ → Nat) (bucketSize maxDepth : Nat)
    (hpol : ∀ idx d box, policy idx d box < nf) (vmax vlowest inf : ℝ)
    (hinf : ∀ q i, q < n → i < n → dist q i < inf)
    (ord : Orders ℝ) (hord : ord.Valid) (k : Nat) (hk : k ≤ 1) :
    ∃ fuel idx' t T, make (eqEps 0) x policy bucketSize maxDepth nf vmax vlowest (List.range n) =
        some (idx', t) ∧
      makeTree x (fun v w => |v - w|) dist inf t ord n k fuel = some T ∧
      IsSpanningTree n T ∧ (∀ e ∈ T, e.2.2 = dist e.1 e.2.1) ∧
      ∀ S : List (Edge ℝ), IsSpanningTree n S → (∀ e ∈ S, e.2.2 = dist e.1 e.2.1) →
        total T ≤ total S := by
  obtain ⟨fuel, idx', t, T, h1, h2, h3, h4, h5⟩ := C28_minimal n hn 0 le_rfl nf x dist hd policy
    bucketSize maxDepth hpol vmax vlowest inf hinf ord hord k hk
  refine ⟨fuel, idx', t, T, h1, h2, h3, h4, fun S hS hw => ?_⟩
  have := h5 S hS hw
  simpa using this

/-- **C29.** The loop condition of `make_tree` is evaluated at most `log2 n + 1` times: at most
`log2 n` rounds (any larger number of allowed rounds gives the same result). -/
theorem C29_rounds (n : Nat) (hn : 0 < n) (eps : ℝ) (he : 0 ≤ eps) (nf : Nat)
    (x : Nat → Nat → ℝ) (dist : Nat → Nat → ℝ)
    (hd : ∀ q i, euclidean (row nf (x i)) (row nf (x q)) = some (dist q i))
    (policy : List Nat → Nat → Box ℝ → Nat) (bucketSize maxDepth : Nat)
    (hpol : ∀ idx d box, policy idx d box < nf) (vmax vlowest inf : ℝ)
    (hinf : ∀ q i, q < n → i < n → dist q i < inf)
    (ord : Orders ℝ) (hord : ord.Valid) (k : Nat) (hk : k ≤ 1) :
    ∃ idx' t T, make (eqEps eps) x policy bucketSize maxDepth nf vmax vlowest (List.range n) =
        some (idx', t) ∧
      ∀ fuel, Nat.log 2 n + 1 ≤ fuel →
        makeTree x (fun v w => |v - w|) dist inf t ord n k fuel = some T := by
  obtain ⟨idx', t, T, h1, h2, _⟩ := makeTree_float n hn eps he nf x dist hd policy
    bucketSize maxDepth hpol vmax vlowest inf hinf ord hord k hk (Nat.log 2 n + 1) (by omega)
  exact ⟨idx', t, T, h1, fun fuel hf => makeTree_mono hf h2⟩

/-! ### core distances -/

theorem filter_length_of_perm {F : Type} {kept rest : List F} {l : List F}
    (hp : (kept ++ rest).Perm l) (p : F → Bool) :
    (l.filter p).length = (kept.filter p).length + (rest.filter p).length := by
  rw [← (hp.filter p).length_eq, List.filter_append, List.length_append]

/-- Order statistics from the kept and rejected candidates of a search. -/
theorem isKth_of_kept {kept rest : List (Nat × ℝ)} {idx : List Nat} {dist : Nat → ℝ} {fd slack : ℝ}
    {k : Nat} (hs : 0 ≤ slack) (hp : (kept ++ rest).Perm (cands (candAll dist) idx))
    (hle : ∀ a ∈ kept, ∀ b ∈ rest, a.2 ≤ b.2 + slack) (hlen : kept.length = k)
    {i : Nat} {j : Nat} (hfd : kept[j]? = some (i, fd)) (hmax : ∀ a ∈ kept, a.2 ≤ fd) :
    IsKthUpTo slack k (idx.map dist) fd := by
  have hm : (cands (candAll dist) idx).map Prod.snd = idx.map dist := by
    unfold cands candAll
    induction idx with
    | nil => rfl
    | cons a l ih => simp_all
  have hp2 : (kept.map Prod.snd ++ rest.map Prod.snd).Perm (idx.map dist) := by
    rw [← hm, ← List.map_append]
    exact hp.map _
  have hmem : (i, fd) ∈ kept := List.mem_of_getElem? hfd
  have hmem' : fd ∈ kept.map Prod.snd := List.mem_map.2 ⟨_, hmem, rfl⟩
  refine ⟨hp2.mem_iff.1 (List.mem_append_left _ hmem'), ?_, ?_⟩
  · rw [filter_length_of_perm hp2]
    have : (kept.map Prod.snd).filter (fun a => decide (a ≤ fd)) = kept.map Prod.snd := by
      rw [List.filter_eq_self]
      intro a ha
      obtain ⟨b, hb, rfl⟩ := List.mem_map.1 ha
      simpa using hmax b hb
    rw [this]
    simp [hlen]
  · rw [filter_length_of_perm hp2]
    have h1 : (rest.map Prod.snd).filter (fun a => decide (a + slack < fd)) = [] := by
      rw [List.filter_eq_nil_iff]
      intro a ha
      obtain ⟨b, hb, rfl⟩ := List.mem_map.1 ha
      simpa using hle _ hmem b hb
    have h2 : ((kept.map Prod.snd).filter (fun a => decide (a + slack < fd))).length <
        (kept.map Prod.snd).length := by
      rw [List.length_filter_lt_length_iff_exists]
      exact ⟨fd, hmem', by simpa using hs⟩
    rw [h1]
    simp only [List.length_map, hlen] at h2
    simpa using h2

theorem coreDistance_float {n : Nat} (hn : 0 < n) {eps : ℝ} (he : 0 ≤ eps) {nf : Nat}
    {x : Nat → Nat → ℝ} {dist : Nat → Nat → ℝ}
    (hd : ∀ q i, euclidean (row nf (x i)) (row nf (x q)) = some (dist q i)) (inf : ℝ)
    {t : KDTree.Tree ℝ} (ho : t.SplitBy (fun a i p => x i a ≤ x p a + 2 * eps)
      (fun a p i => x p a ≤ x i a + 2 * eps)) (ha : t.AxesLt nf)
    (hp : t.indices.Perm (List.range n)) {k : Nat} (hk : 1 ≤ k) (hk2 : k < 2 ^ 64) (q : Nat) :
    ∃ v, coreDistance x (fun v w => |v - w|) dist inf t k q = some v ∧
      IsKthUpTo (2 * eps) (min k n) ((List.range n).map (dist q)) v := by
  obtain ⟨b, kept, es, _, h1, h2, ⟨rest, hr1, hr2⟩, hl, _, hf, _⟩ :=
    search_result_full (sim_static x (x q) _ (candAll (dist q))) (fun d => by linarith)
      (pruneOk_float he (hd q) (fun i d h => by simpa [candAll] using h.symm)) (inf := inf) hk2
      (Or.inl (by omega)) t (splitBy_axes ho ha) (fun _ _ => trivial) (Buffer.mk inf k) trivial rfl
  have hcl : (cands (candAll (dist q)) t.indices).length = n := by
    have : (cands (candAll (dist q)) t.indices).length = t.indices.length := by
      unfold cands candAll
      generalize t.indices = l
      induction l with
      | nil => rfl
      | cons a l ih => simp_all
    rw [this, hp.length_eq, List.length_range]
  have hcap : capEff k = k := by unfold capEff; rw [if_neg (by omega)]
  rw [hcl, hcap] at hl
  have hne : kept ≠ [] := by
    intro h; rw [h] at hl; simp at hl; omega
  obtain ⟨⟨i, hi⟩, hmax⟩ := hf hne
  refine ⟨b.furthestDistance, ?_, ?_⟩
  · simp only [coreDistance, es, Option.bind_eq_bind, Option.bind_some]
  · have hpc : (cands (candAll (dist q)) t.indices).Perm (cands (candAll (dist q)) (List.range n)) :=
      List.Perm.filterMap _ hp
    refine isKth_of_kept (by linarith) (hr1.trans hpc) ?_ hl hi hmax
    intro a ha b hb
    obtain ⟨d', h3, h4⟩ := hr2 a ha b hb
    linarith

theorem coreDistances_of {K D : Type} [LinearOrder K] [LinearOrder D] {x : Nat → Nat → K}
    {gap : K → K → D} {dist : Nat → Nat → D} {inf : D} {t : KDTree.Tree K} {n k : Nat}
    {P : Nat → D → Prop}
    (h : ∀ q, q < n → ∃ v, coreDistance x gap dist inf t k q = some v ∧ P q v) :
    ∃ core : List D, coreDistances x gap dist inf t n k = some core ∧ core.length = n ∧
      ∀ q, q < n → ∃ v, core[q]? = some v ∧ P q v := by
  suffices hsuff : ∀ l : List Nat, (∀ q ∈ l, q < n) → ∃ core : List D,
      l.mapM (coreDistance x gap dist inf t k) = some core ∧ core.length = l.length ∧
      ∀ j q, l[j]? = some q → ∃ v, core[j]? = some v ∧ P q v by
    obtain ⟨core, h1, h2, h3⟩ := hsuff (List.range n) (fun q hq => List.mem_range.1 hq)
    refine ⟨core, h1, by simpa using h2, fun q hq => h3 q q (List.getElem?_range hq)⟩
  intro l
  induction l with
  | nil => intro _; exact ⟨[], rfl, rfl, by simp⟩
  | cons q l ih =>
    intro hl
    obtain ⟨v, hv1, hv2⟩ := h q (hl q (by simp))
    obtain ⟨core, h1, h2, h3⟩ := ih (fun q hq => hl q (by simp [hq]))
    refine ⟨v :: core, by simp [List.mapM_cons, hv1, h1], by simp [h2], ?_⟩
    intro j q' hj
    cases j with
    | zero => simp at hj; subst hj; exact ⟨v, by simp, hv2⟩
    | succ j => simp at hj; simpa using h3 j q' hj

/-- **C31** on floating data: `make_static_core_distances` gives for every sample the `k`-th
smallest distance to the samples, itself included (the largest one when there are fewer than `k`
samples), up to the `2 * eps` lost by the equality tolerance of the tree construction. -/
theorem C31_core_distances (n : Nat) (hn : 0 < n) (eps : ℝ) (he : 0 ≤ eps) (nf : Nat)
    (x : Nat → Nat → ℝ) (dist : Nat → Nat → ℝ)
    (hd : ∀ q i, euclidean (row nf (x i)) (row nf (x q)) = some (dist q i))
    (policy : List Nat → Nat → Box ℝ → Nat) (bucketSize maxDepth : Nat)
    (hpol : ∀ idx d box, policy idx d box < nf) (vmax vlowest inf : ℝ)
    (k : Nat) (hk : 1 ≤ k) (hk2 : k < 2 ^ 64) :
    ∃ idx' t core, make (eqEps eps) x policy bucketSize maxDepth nf vmax vlowest (List.range n) =
        some (idx', t) ∧
      coreDistances x (fun v w => |v - w|) dist inf t n k = some core ∧ core.length = n ∧
      ∀ q, q < n → ∃ v, core[q]? = some v ∧
        IsKthUpTo (2 * eps) (min k n) ((List.range n).map (dist q)) v := by
  obtain ⟨idx', t, e, hp, hi, _, ho, _, ha, _⟩ :=
    make_float eps he x policy bucketSize maxDepth nf hpol vmax vlowest (List.range n)
  obtain ⟨core, h1, h2, h3⟩ := coreDistances_of (fun q _ =>
    coreDistance_float hn he hd inf ho ha (by rw [hi]; exact hp) hk hk2 q)
  exact ⟨idx', t, core, e, h1, h2, h3⟩

/-- Order statistics from an exact search. -/
theorem isKth_of_isKNearest {D : Type} [LinearOrder D] {kept rest : List (Nat × D)} {idx : List Nat}
    {dist : Nat → D} {fd : D} {k : Nat} (hp : (kept ++ rest).Perm (cands (candAll dist) idx))
    (hle : ∀ a ∈ kept, ∀ b ∈ rest, a.2 ≤ b.2) (hlen : kept.length = k)
    {i : Nat} {j : Nat} (hfd : kept[j]? = some (i, fd)) (hmax : ∀ a ∈ kept, a.2 ≤ fd) :
    IsKth k (idx.map dist) fd := by
  have hm : (cands (candAll dist) idx).map Prod.snd = idx.map dist := by
    unfold cands candAll
    induction idx with
    | nil => rfl
    | cons a l ih => simp_all
  have hp2 : (kept.map Prod.snd ++ rest.map Prod.snd).Perm (idx.map dist) := by
    rw [← hm, ← List.map_append]
    exact hp.map _
  have hmem : (i, fd) ∈ kept := List.mem_of_getElem? hfd
  have hmem' : fd ∈ kept.map Prod.snd := List.mem_map.2 ⟨_, hmem, rfl⟩
  refine ⟨hp2.mem_iff.1 (List.mem_append_left _ hmem'), ?_, ?_⟩
  · rw [filter_length_of_perm hp2]
    have : (kept.map Prod.snd).filter (fun a => decide (a ≤ fd)) = kept.map Prod.snd := by
      rw [List.filter_eq_self]
      intro a ha
      obtain ⟨b, hb, rfl⟩ := List.mem_map.1 ha
      simpa using hmax b hb
    rw [this]
    simp [hlen]
  · rw [filter_length_of_perm hp2]
    have h1 : (rest.map Prod.snd).filter (fun a => decide (a < fd)) = [] := by
      rw [List.filter_eq_nil_iff]
      intro a ha
      obtain ⟨b, hb, rfl⟩ := List.mem_map.1 ha
      simpa using hle _ hmem b hb
    have h2 : ((kept.map Prod.snd).filter (fun a => decide (a < fd))).length <
        (kept.map Prod.snd).length := by
      rw [List.length_filter_lt_length_iff_exists]
      exact ⟨fd, hmem', by simp⟩
    rw [h1]
    simp only [List.length_map, hlen] at h2
    simpa using h2

theorem coreDistance_signed {n : Nat} (hn : 0 < n) {nf : Nat} {x : Nat → Nat → ℤ}
    {dist : Nat → Nat → ℤ}
    (hd : ∀ q i, manhattan (row nf (x i)) (row nf (x q)) = some (dist q i)) (inf : ℤ)
    {t : KDTree.Tree ℤ} (ho : t.SplitBy (fun a i p => x i a < x p a) (fun a p i => x p a ≤ x i a))
    (ha : t.AxesLt nf) (hp : t.indices.Perm (List.range n)) {k : Nat} (hk : 1 ≤ k)
    (hk2 : k < 2 ^ 64) (q : Nat) :
    ∃ v, coreDistance x (fun v w => |v - w|) dist inf t k q = some v ∧
      IsKth (min k n) ((List.range n).map (dist q)) v := by
  obtain ⟨b, kept, es, _, h1, h2, ⟨rest, hr1, hr2⟩, hl, _, hf, _⟩ :=
    search_result_full (sim_static x (x q) _ (candAll (dist q))) (fun d => rfl)
      (pruneOk_exact (gapSound_manhattan (hd q)) (fun i d h => by simpa [candAll] using h.symm))
      (inf := inf) hk2
      (Or.inl (by omega)) t (splitBy_axes ho ha) (fun _ _ => trivial) (Buffer.mk inf k) trivial rfl
  have hcl : (cands (candAll (dist q)) t.indices).length = n := by
    have : (cands (candAll (dist q)) t.indices).length = t.indices.length := by
      unfold cands candAll
      generalize t.indices = l
      induction l with
      | nil => rfl
      | cons a l ih => simp_all
    rw [this, hp.length_eq, List.length_range]
  have hcap : capEff k = k := by unfold capEff; rw [if_neg (by omega)]
  rw [hcl, hcap] at hl
  have hne : kept ≠ [] := by
    intro h; rw [h] at hl; simp at hl; omega
  obtain ⟨⟨i, hi⟩, hmax⟩ := hf hne
  refine ⟨b.furthestDistance, ?_, ?_⟩
  · simp only [coreDistance, es, Option.bind_eq_bind, Option.bind_some]
  · have hpc : (cands (candAll (dist q)) t.indices).Perm (cands (candAll (dist q)) (List.range n)) :=
      List.Perm.filterMap _ hp
    refine isKth_of_isKNearest (hr1.trans hpc) ?_ hl hi hmax
    intro a ha b hb
    obtain ⟨d', rfl, h4⟩ := hr2 a ha b hb
    exact h4

/-- **C31** on signed integral data: exactly the `k`-th smallest distance. -/
theorem C31_core_distances_signed (n : Nat) (hn : 0 < n) (nf : Nat)
    (x : Nat → Nat → ℤ) (dist : Nat → Nat → ℤ)
    (hd : ∀ q i, manhattan (row nf (x i)) (row nf (x q)) = some (dist q i))
    (policy : List Nat → Nat → Box ℤ → Nat) (bucketSize maxDepth : Nat)
    (hpol : ∀ idx d box, policy idx d box < nf) (vmax vlowest inf : ℤ)
    (k : Nat) (hk : 1 ≤ k) (hk2 : k < 2 ^ 64) :
    ∃ idx' t core, make eqExact x policy bucketSize maxDepth nf vmax vlowest (List.range n) =
        some (idx', t) ∧
      coreDistances x (fun v w => |v - w|) dist inf t n k = some core ∧ core.length = n ∧
      ∀ q, q < n → ∃ v, core[q]? = some v ∧
        IsKth (min k n) ((List.range n).map (dist q)) v := by
  obtain ⟨idx', t, e, hp, hi, _, ho, _, ha, _⟩ :=
    make_exact x policy bucketSize maxDepth nf hpol vmax vlowest (List.range n)
  obtain ⟨core, h1, h2, h3⟩ := coreDistances_of (fun q _ =>
    coreDistance_signed hn hd inf ho ha (by rw [hi]; exact hp) hk hk2 q)
  exact ⟨idx', t, core, e, h1, h2, h3⟩

/-! ### with core distances -/

/-- **C30**, spanning part, for every neighbour count: with core distances `make_tree` terminates
within `log2 n` rounds and returns a spanning tree whose edges are weighted with the mutual
reachability distance of their end points. -/
theorem C30_spanning (n : Nat) (hn : 0 < n) (eps : ℝ) (he : 0 ≤ eps) (nf : Nat)
    (x : Nat → Nat → ℝ) (dist : Nat → Nat → ℝ)
    (hd : ∀ q i, euclidean (row nf (x i)) (row nf (x q)) = some (dist q i))
    (policy : List Nat → Nat → Box ℝ → Nat) (bucketSize maxDepth : Nat)
    (hpol : ∀ idx d box, policy idx d box < nf) (vmax vlowest inf : ℝ)
    (hinf : ∀ q i, q < n → i < n → dist q i < inf)
    (ord : Orders ℝ) (hord : ord.Valid) (k : Nat) (hk : 1 < k) (hk2 : k < 2 ^ 64) :
    ∃ idx' t T, make (eqEps eps) x policy bucketSize maxDepth nf vmax vlowest (List.range n) =
        some (idx', t) ∧
      (∀ fuel, Nat.log 2 n + 1 ≤ fuel →
        makeTree x (fun v w => |v - w|) dist inf t ord n k fuel = some T) ∧
      IsSpanningTree n T ∧
      ∃ core : Nat → ℝ,
        (∀ q, q < n → IsKthUpTo (2 * eps) (min k n) ((List.range n).map (dist q)) (core q)) ∧
        (∀ e ∈ T, e.2.2 = max (max (core e.1) (core e.2.1)) (dist e.1 e.2.1)) ∧
        (k = 2 → ∀ S : List (Edge ℝ), IsSpanningTree n S →
          (∀ e ∈ S, e.2.2 = max (max (core e.1) (core e.2.1)) (dist e.1 e.2.1)) →
          total T ≤ total S + (n - 1 : ℕ) * (4 * eps)) := by
  obtain ⟨idx', t, e, hp, hi, _, ho, _, ha, _⟩ :=
    make_float eps he x policy bucketSize maxDepth nf hpol vmax vlowest (List.range n)
  have hmem : ∀ i, i ∈ t.indices ↔ i < n := fun i => by
    rw [hi, hp.mem_iff, List.mem_range]
  have ht := goodTree_float he hd ho ha (n := n) (fun i h => (hmem i).1 h)
  obtain ⟨core, ec, hcl, hcore⟩ := coreDistances_of (fun q _ =>
    coreDistance_float hn he hd inf ho ha (by rw [hi]; exact hp) (le_of_lt hk) hk2 q)
  have hcv : ∀ q, q < n → core[q]? = some (core.getD q 0) ∧
      IsKthUpTo (2 * eps) (min k n) ((List.range n).map (dist q)) (core.getD q 0) := by
    intro q hq
    obtain ⟨v, h1, h2⟩ := hcore q hq
    have : core.getD q 0 = v := by simp [List.getD_eq_getElem?_getD, h1]
    rw [this]
    exact ⟨h1, h2⟩
  have hclt : ∀ q, q < n → core.getD q 0 < inf := by
    intro q hq
    obtain ⟨j, hj, hjv⟩ := List.mem_map.1 (hcv q hq).2.mem
    rw [← hjv]
    exact hinf q j hq (by simpa using hj)
  -- with two neighbours the core distance is at most the distance to any other sample
  have hcore2 : k = 2 → ∀ q i, q < n → i < n → q ≠ i → core.getD q 0 ≤ dist q i + 2 * eps := by
    intro h2 q i hq hi hne
    by_contra hlt
    have h3 := (hcv q hq).2.lt
    have hq0 : dist q q ≤ dist q i := by
      have h4 := hd q q
      rw [euclidean_eq (by simp [row])] at h4
      have : dist q q = 0 := by
        rw [← Option.some.inj h4]
        have : (List.zipWith (fun a b : ℝ => (a - b) * (a - b)) (row nf (x q)) (row nf (x q))).sum
            = 0 := by
          generalize row nf (x q) = l
          induction l with
          | nil => rfl
          | cons a l ih => simp [ih]
        rw [this, Real.sqrt_zero]
      rw [this]
      exact dist_nonneg hd q i
    rw [List.filter_map, List.length_map] at h3
    have hsub : [q, i].Subperm ((List.range n).filter
        ((fun a => decide (a + 2 * eps < core.getD q 0)) ∘ dist q)) := by
      refine List.subperm_of_subset (by simp [hne]) ?_
      intro a ha
      rw [List.mem_filter]
      rcases List.mem_cons.1 ha with rfl | ha
      · exact ⟨by simpa using hq, by simp only [Function.comp]; exact decide_eq_true (by linarith)⟩
      · rw [List.mem_singleton] at ha
        subst ha
        exact ⟨by simpa using hi, by simp only [Function.comp]; exact decide_eq_true (by linarith)⟩
    have := hsub.length_le
    simp only [List.length_cons, List.length_nil] at this
    omega
  have hs : Setting x (fun v w => |v - w|) dist (mutualReach core)
      (fun q i => max (max (core.getD q 0) (core.getD i 0)) (dist q i)) inf t n
      (fun d d' => d' ≤ d + 2 * eps) (fun _ _ => False)
      (fun (s : ℝ) a b => k = 2 ∧ a < n ∧ b < n ∧ dist a b < s)
      (fun s w => decide (s + 4 * eps ≤ w)) := by
    refine ⟨ht, fun i h => (hmem i).2 h, ?_, ?_, ?_, ?_, ?_⟩
    · intro q i hq hi
      simp only [mutualReach, (hcv q hq).1, (hcv i hi).1, Option.bind_eq_bind, Option.bind_some]
    · intro _ q hq hr _
      refine ⟨q, hq, hr, fun i hi _ _ => ?_⟩
      exact max_lt (max_lt (hclt q hq) (hclt i hi)) (hinf q i hq hi)
    · rintro s a b ⟨h0, h1, h2, h3⟩
      exact ⟨h0, h2, h1, by rw [dist_symm hd]; exact h3⟩
    · rintro s a b ⟨_, h1, h2, _⟩
      exact ⟨h1, h2⟩
    · rintro s w q i j d' hq hi hne _ hb h1 h2 h3 ⟨h0, _, _, h4⟩
      have h5 := of_decide_eq_true hb
      have h6 := hcore2 h0 q i hq hi hne
      have h7 := hcore2 h0 i q hi hq hne.symm
      rw [dist_symm hd] at h7
      have h8 : w ≤ dist q i + 2 * eps :=
        h1.trans (max_le (max_le h6 h7) (by linarith))
      linarith
  obtain ⟨f0, f', e0, e1, hT, hw, hind⟩ := makeLoop_tree hs hn (fun _ _ h => h.elim) hord (Nat.log 2 n + 1) (by omega)
  refine ⟨idx', t, f'.mst, e, ?_, hT, fun q => core.getD q 0, fun q hq => (hcv q hq).2, hw, ?_⟩
  · intro fuel hf
    refine makeTree_mono hf ?_
    simp only [makeTree, e0, Option.bind_eq_bind, Option.bind_some, if_pos hk, ec, e1]
  · intro h2 S hS hSw
    refine total_le hn (dist_nonneg hd) hT ?_ hS.vertices hS.connects ?_
    · intro s
      have h3 := hind s
      have : (fun a b => k = 2 ∧ a < n ∧ b < n ∧ dist a b < s) =
          (fun a b => a < n ∧ b < n ∧ dist a b < s) := by
        funext a b; simp [h2]
      rw [this] at h3
      exact h3
    · intro e he
      rw [hSw e he]
      exact le_max_right _ _

/-! ### integral data: the loop never ends -/

section Integral

theorem merge_default {n : Nat} {f : Forest ℤ} {r : Nat → Nat} (hu : UF.SInv n f.uf r) (hn : 0 < n)
    (w : ℤ) : ∃ u', mergeComponents f (0, 0, w) = some { f with uf := u' } ∧ UF.SInv n u' r := by
  obtain ⟨u1, e1, h1, _⟩ := UF.find_spec hu hn
  obtain ⟨u2, e2, h2, _⟩ := UF.find_spec h1 hn
  refine ⟨u2, ?_, h2⟩
  simp only [mergeComponents, e1, Option.bind_eq_bind, Option.bind_some, e2, if_true]

theorem fold_default {n : Nat} {r : Nat → Nat} (hn : 0 < n) (w : ℤ) :
    ∀ (es : List (Nat × Edge ℤ)) (f : Forest ℤ), UF.SInv n f.uf r → (∀ p ∈ es, p.2 = (0, 0, w)) →
    ∃ u', es.foldlM (fun f e => mergeComponents f e.2) f = some { f with uf := u' } ∧
      UF.SInv n u' r := by
  intro es
  induction es with
  | nil => intro f hu _; exact ⟨f.uf, rfl, hu⟩
  | cons p es ih =>
    intro f hu hes
    obtain ⟨u1, e1, h1⟩ := merge_default hu hn w
    obtain ⟨u2, e2, h2⟩ := ih { f with uf := u1 } h1 (fun p hp => hes p (by simp [hp]))
    refine ⟨u2, ?_, h2⟩
    rw [List.foldlM_cons, hes p (by simp), e1]
    exact e2

variable {x : Nat → Nat → ℤ} {gap : ℤ → ℤ → ℤ} {dist : Nat → Nat → ℤ}
  {weight : Nat → Nat → ℤ → Option ℤ} {wt : Nat → Nat → ℤ} {t : KDTree.Tree ℤ} {n : Nat}
  {near : ℤ → ℤ → Prop}

theorem shortest_default (ht : GoodTree x x gap dist n near t) (hall : ∀ i, i < n → i ∈ t.indices)
    (hw : ∀ q i, q < n → i < n → weight q i (dist q i) = some (wt q i)) (hwt : ∀ q i, 0 ≤ wt q i)
    {f : Forest ℤ} {r : Nat → Nat} (h : FInv n f r) (h2 : 1 < f.comps.length) {k : Nat}
    {c : List Nat} (hkc : (k, c) ∈ f.comps) {u : UF.State} (hu : UF.SInv n u r) :
    ∃ u', shortestFrom x x gap dist weight 0 t k c u (defaultEdge 0) = some (u', (0, 0, 0)) ∧
      UF.SInv n u' r := by
  obtain ⟨hkn, hrk⟩ := (h.keys k).1 (List.mem_map.2 ⟨_, hkc, rfl⟩)
  have hmem := h.mem k c hkc
  obtain ⟨j, hj, hrj, hjk⟩ := h.exists_other h2 k
  obtain ⟨u', e, e1, hu', hcase, _, _⟩ := shortestFrom_spec ht 0 weight wt hkn
    ⟨j, hall j hj, by rw [hrk, hrj]; exact hjk.symm⟩ c u (defaultEdge 0) hu
    (fun q hq i hi => hw q i ((hmem q).1 hq).1 (ht.valid i hi))
  rcases hcase with rfl | ⟨q, _, i, _, _, _, hlt⟩
  · exact ⟨u', e1, hu'⟩
  · exact absurd (hwt q i) (not_le.2 hlt.1)

theorem closestEdges_default (ht : GoodTree x x gap dist n near t)
    (hall : ∀ i, i < n → i ∈ t.indices)
    (hw : ∀ q i, q < n → i < n → weight q i (dist q i) = some (wt q i)) (hwt : ∀ q i, 0 ≤ wt q i)
    {f : Forest ℤ} {r : Nat → Nat} (h : FInv n f r) (h2 : 1 < f.comps.length) :
    ∀ (L : List (Nat × List Nat)) (u : UF.State), (∀ p ∈ L, p ∈ f.comps) → UF.SInv n u r →
      ∃ u' es, closestEdges x gap dist weight 0 t L u = some (u', es) ∧ UF.SInv n u' r ∧
        ∀ p ∈ es, p.2 = (0, 0, 0) := by
  intro L
  induction L with
  | nil => intro u _ hu; exact ⟨u, [], rfl, hu, by simp⟩
  | cons p L ih =>
    intro u hL hu
    obtain ⟨k, c⟩ := p
    obtain ⟨u1, e1, hu1⟩ := shortest_default ht hall hw hwt h h2 (hL (k, c) (by simp)) hu
    obtain ⟨u2, es, e2, hu2, hes⟩ := ih u1 (fun p hp => hL p (by simp [hp])) hu1
    refine ⟨u2, (k, (0, 0, 0)) :: es, ?_, hu2, ?_⟩
    · simp only [closestEdges, e1, Option.bind_eq_bind, Option.bind_some, e2]
    · intro p hp
      rcases List.mem_cons.1 hp with rfl | hp
      · rfl
      · exact hes p hp

theorem makeLoop_stuck (hn : 0 < n) (ht : GoodTree x x gap dist n near t)
    (hall : ∀ i, i < n → i ∈ t.indices)
    (hw : ∀ q i, q < n → i < n → weight q i (dist q i) = some (wt q i)) (hwt : ∀ q i, 0 ≤ wt q i)
    {ord : Orders ℤ} (hord : ord.Valid) : ∀ (fuel round : Nat) (f : Forest ℤ) (r : Nat → Nat),
    FInv n f r → 1 < f.comps.length →
    makeLoop x gap dist weight 0 t ord fuel round f = none := by
  intro fuel
  induction fuel with
  | zero => intros; rfl
  | succ fuel ih =>
    intro round f r h h2
    unfold makeLoop
    rw [if_pos h2]
    have hpc := hord.comps round f.comps
    have hstep : ∃ u', UF.SInv n u' r ∧
        (if f.comps.length = 2 then dualComponentStep x gap dist weight 0 t ord round f
          else stepSequential x gap dist weight 0 t ord round f) = some { f with uf := u' } := by
      by_cases h3 : f.comps.length = 2
      · rw [if_pos h3]
        unfold dualComponentStep
        cases hc : ord.comps round f.comps with
        | nil => rw [hc] at hpc; have := hpc.length_eq; simp at this; omega
        | cons p rest =>
          rw [hc] at hpc
          have hmem : smallest rest p ∈ f.comps := by
            refine hpc.mem_iff.1 ?_
            rcases smallest_mem rest p with h | h
            · rw [h]; simp
            · simp [h]
          obtain ⟨u1, e1, hu1⟩ := shortest_default (k := (smallest rest p).1)
            (c := (smallest rest p).2) ht hall hw hwt h h2 hmem h.uf
          obtain ⟨u2, e2, hu2⟩ := merge_default (f := { f with uf := u1 }) hu1 hn 0
          refine ⟨u2, hu2, ?_⟩
          simp only [e1, Option.bind_eq_bind, Option.bind_some, e2]
      · rw [if_neg h3]
        obtain ⟨u1, es, e1, hu1, hes⟩ := closestEdges_default ht hall hw hwt h h2
          (ord.comps round f.comps) f.uf (fun p hp => hpc.mem_iff.1 hp) h.uf
        obtain ⟨u2, e2, hu2⟩ := fold_default hn 0 (ord.edges round es) { f with uf := u1 } hu1
          (fun p hp => hes p ((hord.edges round es).mem_iff.1 hp))
        refine ⟨u2, hu2, ?_⟩
        simp only [stepSequential, e1, Option.bind_eq_bind, Option.bind_some, e2]
    obtain ⟨u', hu', e⟩ := hstep
    have hrest := ih (round + 1) { f with uf := u' } r (h.with_uf hu') h2
    by_cases h3 : f.comps.length = 2
    · rw [if_pos h3] at e ⊢
      simp only [e, Option.bind_eq_bind, Option.bind_some, hrest]
    · rw [if_neg h3] at e ⊢
      simp only [e, Option.bind_eq_bind, Option.bind_some, hrest]

end Integral

/-- **C27 fails on integral data**: `infinity<ValueType>()` is `0`, so no edge is ever shorter than
the default edge (0, 0), which joins nothing.  With two samples or more the loop of `make_tree`
never ends, for all data and neighbour counts. -/
theorem C27_integral_never_ends (n : Nat) (hn : 2 ≤ n) (nf : Nat)
    (x : Nat → Nat → ℤ) (dist : Nat → Nat → ℤ)
    (hd : ∀ q i, manhattan (row nf (x i)) (row nf (x q)) = some (dist q i))
    (policy : List Nat → Nat → Box ℤ → Nat) (bucketSize maxDepth : Nat)
    (hpol : ∀ idx d box, policy idx d box < nf) (vmax vlowest : ℤ)
    (ord : Orders ℤ) (hord : ord.Valid) (k : Nat) (hk2 : k < 2 ^ 64) :
    ∃ idx' t, make eqExact x policy bucketSize maxDepth nf vmax vlowest (List.range n) =
        some (idx', t) ∧
      ∀ fuel, makeTree x (fun v w => |v - w|) dist 0 t ord n k fuel = none := by
  obtain ⟨idx', t, e, hp, hi, _, ho, _, ha, _⟩ :=
    make_exact x policy bucketSize maxDepth nf hpol vmax vlowest (List.range n)
  have hmem : ∀ i, i ∈ t.indices ↔ i < n := fun i => by rw [hi, hp.mem_iff, List.mem_range]
  have ht := goodTree_signed hd ho ha (n := n) (fun i h => (hmem i).1 h)
  have hnn : ∀ q i, 0 ≤ dist q i := fun q i => manhattan_nonneg (by simp [row]) (hd q i)
  obtain ⟨f0, e0, h0, hm0⟩ := FInv.init (D := ℤ) (n := n) (by omega)
  have hlen : 1 < f0.comps.length := by
    rw [h0.comps_length]
    have := h0.count
    rw [hm0] at this
    simp at this
    omega
  refine ⟨idx', t, e, fun fuel => ?_⟩
  simp only [makeTree, e0, Option.bind_eq_bind, Option.bind_some]
  by_cases hk : k > 1
  · rw [if_pos hk]
    obtain ⟨core, ec, hcl, hcore⟩ := coreDistances_of (fun q _ =>
      coreDistance_signed (n := n) (by omega) hd 0 ho ha (by rw [hi]; exact hp) (le_of_lt hk) hk2 q)
    have := makeLoop_stuck (weight := mutualReach core)
      (wt := fun q i => max (max (core.getD q 0) (core.getD i 0)) (dist q i)) (by omega) ht
      (fun i h => (hmem i).2 h) (by
        intro q i hq hi
        obtain ⟨v, h1, _⟩ := hcore q hq
        obtain ⟨w, h2, _⟩ := hcore i hi
        simp [mutualReach, h1, h2, List.getD_eq_getElem?_getD])
      (fun q i => (hnn q i).trans (le_max_right _ _)) hord fuel 0 f0 id h0 hlen
    simp only [ec, Option.bind_some, this, Option.bind_none]
  · rw [if_neg hk]
    have := makeLoop_stuck (weight := plainWeight) (wt := dist) (by omega) ht
      (fun i h => (hmem i).2 h) (fun _ _ _ _ => rfl) hnn hord fuel 0 f0 id h0 hlen
    simp only [this, Option.bind_none]

/-- No samples: the constructor throws. -/
theorem C27_no_samples {K D : Type} [LinearOrder K] [LinearOrder D] (x : Nat → Nat → K)
    (gap : K → K → D) (dist : Nat → Nat → D) (inf : D) (t : KDTree.Tree K) (ord : Orders D)
    (k fuel : Nat) : makeTree x gap dist inf t ord 0 k fuel = none := by
  simp [makeTree, Forest.init]

/-! ### concrete cases -/

def idOrders : Orders ℤ := ⟨fun _ l => l, fun _ l => l⟩

theorem idOrders_valid : idOrders.Valid := ⟨fun _ _ => .refl _, fun _ _ => .refl _⟩

def witX : Nat → Nat → ℤ := fun i _ => ([1, 6, 19, 12, 10] : List ℤ).getD i 0

/-- The tree built over the five samples of `witX` (integers with a large `inf` stand for floating
values). -/
def witTree (k fuel : Nat) : Option (List (Edge ℤ)) :=
  (make eqExact witX (fun _ _ _ => 0) 1 10 1 1000 (-1000) (List.range 5)).bind fun p =>
    makeTree witX (fun v w => |v - w|) (fun q i => |witX i 0 - witX q 0|) 1000 p.2 idOrders 5 k fuel

/-- Non-vacuity of C27-C29: five samples on a line, three evaluations of the loop condition. -/
example : witTree 1 3 = some [(0, 1, 5), (1, 4, 4), (2, 3, 7), (3, 4, 2)] ∧ witTree 1 1 = none := by
  decide +kernel

/-- Core distances of `witX` for four neighbours. -/
def witCore : Nat → ℤ := fun i => ([11, 6, 13, 7, 9] : List ℤ).getD i 0

theorem witCore_isKth (q : Nat) (hq : q < 5) :
    IsKth 4 ((List.range 5).map (fun i => |witX i 0 - witX q 0|)) (witCore q) := by
  have : q = 0 ∨ q = 1 ∨ q = 2 ∨ q = 3 ∨ q = 4 := by omega
  rcases this with rfl | rfl | rfl | rfl | rfl <;>
    exact ⟨by decide +kernel, by decide +kernel, by decide +kernel⟩

/-- A cheaper spanning tree for the mutual reachability distance. -/
def witBetter : List (Edge ℤ) := [(0, 1, 11), (1, 3, 7), (1, 4, 9), (2, 3, 13)]

theorem witBetter_tree : IsSpanningTree 5 witBetter := by
  refine isSpanningTree_of (by simp [witBetter]) (by simp [witBetter]) ?_
  have h1 : ∀ a, a < 5 → Linked witBetter a 1 := by
    have e : ∀ a b w, (a, b, w) ∈ witBetter → Linked witBetter a b :=
      fun a b w h => .rel _ _ ⟨w, h⟩
    have s : ∀ a b, Linked witBetter a b → Linked witBetter b a := fun a b h => .symm _ _ h
    intro a ha
    have : a = 0 ∨ a = 1 ∨ a = 2 ∨ a = 3 ∨ a = 4 := by omega
    rcases this with rfl | rfl | rfl | rfl | rfl
    · exact e 0 1 11 (by simp [witBetter])
    · exact .refl _
    · exact .trans _ 3 _ (e 2 3 13 (by simp [witBetter])) (s 1 3 (e 1 3 7 (by simp [witBetter])))
    · exact s 1 3 (e 1 3 7 (by simp [witBetter]))
    · exact s 1 4 (e 1 4 9 (by simp [witBetter]))
  intro a b ha hb
  exact .trans _ 1 _ (h1 a ha) (.symm _ _ (h1 b hb))

/-- **C30 fails for four neighbours**: on five samples the returned tree weighs 42 and a spanning
tree weighing 40 for the same mutual reachability distances exists.  (The search offers only the
nearest sample outside of the component, which need not be nearest for the mutual reachability
distance.) -/
theorem C30_not_minimal : ∃ T, witTree 4 3 = some T ∧
    IsSpanningTree 5 witBetter ∧
    (∀ e ∈ T ++ witBetter,
      e.2.2 = max (max (witCore e.1) (witCore e.2.1)) |witX e.2.1 0 - witX e.1 0|) ∧
    (∀ q, q < 5 → IsKth 4 ((List.range 5).map (fun i => |witX i 0 - witX q 0|)) (witCore q)) ∧
    total witBetter < total T := by
  refine ⟨[(0, 1, 11), (1, 4, 9), (2, 3, 13), (3, 4, 9)], by decide +kernel, witBetter_tree, ?_,
    witCore_isKth, by decide +kernel⟩
  decide +kernel

end Verif.Boruvka
