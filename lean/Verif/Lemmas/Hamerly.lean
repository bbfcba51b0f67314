import Verif.Lemmas.KMeans

/-
The invariant of Hamerly's algorithm.
-/

namespace Verif.KMeans

set_option linter.unusedSectionVars false

variable {V K : Type} [AddCommGroup V] [Field K] [LinearOrder K] [IsStrictOrderedRing K] [Module K V]

/-- The cached entries of a sample are valid: the assigned centroid exists, `upper` is at least the
distance to it and `lower` at most the distance to every other one. -/
structure BoundsOK (dist : V → V → K) (cs : List V) (x : V) (q : Cached K) : Prop where
  upper : ∃ c, cs[q.assigned]? = some c ∧ dist x c ≤ q.upper
  lower : ∀ (j : Nat) c, j ≠ q.assigned → cs[j]? = some c → q.lower ≤ dist x c

theorem scanLoop_spec (dist : V → V → K) (x : V) (all : List V) : ∀ (cs : List V) (j a : Nat) (u l : K),
    (∀ t, cs[t]? = all[j + t]?) →
    (∃ c, all[a]? = some c ∧ u = dist x c) →
    (∀ (t : Nat) c, t < j → all[t]? = some c → u ≤ dist x c) →
    (∀ (t : Nat) c, t < j → t ≠ a → all[t]? = some c → l ≤ dist x c) →
    ∀ r, scanLoop dist x j cs (a, u, l) = r →
      (∃ c, all[r.1]? = some c ∧ r.2.1 = dist x c) ∧
      (∀ (t : Nat) c, all[t]? = some c → r.2.1 ≤ dist x c) ∧
      (∀ (t : Nat) c, t ≠ r.1 → all[t]? = some c → r.2.2 ≤ dist x c)
  | [], j, a, u, l, hall, hc, hu, hl, r, hr => by
    simp only [scanLoop] at hr
    subst hr
    have hend : ∀ t c, all[t]? = some c → t < j := by
      intro t c h
      by_contra hh
      have := hall (t - j)
      rw [show j + (t - j) = t by omega, h] at this
      simp at this
    exact ⟨hc, fun t c h => hu t c (hend t c h) h, fun t c hne h => hl t c (hend t c h) hne h⟩
  | c :: cs, j, a, u, l, hall, hc, hu, hl, r, hr => by
    have hj : all[j]? = some c := by simpa using (hall 0).symm
    have htl : ∀ t, cs[t]? = all[j + 1 + t]? := fun t => by
      have := hall (t + 1)
      rw [show j + 1 + t = j + (t + 1) by omega, ← this]
      simp
    simp only [scanLoop] at hr
    by_cases hja : j = a
    · subst hja
      simp only [ne_eq, not_true_eq_false, if_false] at hr
      obtain ⟨c0, hc0, hu0⟩ := hc
      rw [hj] at hc0
      obtain rfl : c = c0 := Option.some.inj hc0
      refine scanLoop_spec dist x all cs (j + 1) j u l htl ⟨c, hj, hu0⟩ ?_ ?_ r hr
      · intro t d ht hd
        rcases Nat.lt_succ_iff_lt_or_eq.1 ht with h | h
        · exact hu t d h hd
        · rw [h, hj] at hd
          rw [hu0, Option.some.inj hd]
      · intro t d ht hne hd
        exact hl t d (by omega) hne hd
    · simp only [ne_eq, hja, not_false_eq_true, if_true] at hr
      by_cases h1 : dist x c < u
      · rw [if_pos h1] at hr
        refine scanLoop_spec dist x all cs (j + 1) j (dist x c) u htl ⟨c, hj, rfl⟩ ?_ ?_ r hr
        · intro t d ht hd
          rcases Nat.lt_succ_iff_lt_or_eq.1 ht with h | h
          · exact h1.le.trans (hu t d h hd)
          · rw [h, hj] at hd
            rw [Option.some.inj hd]
        · intro t d ht hne hd
          exact hu t d (by omega) hd
      · rw [if_neg h1] at hr
        have hu' : ∀ (t : Nat) d, t < j + 1 → all[t]? = some d → u ≤ dist x d := by
          intro t d ht hd
          rcases Nat.lt_succ_iff_lt_or_eq.1 ht with h | h
          · exact hu t d h hd
          · rw [h, hj] at hd
            rw [← Option.some.inj hd]
            exact not_lt.1 h1
        by_cases h2 : dist x c < l
        · rw [if_pos h2] at hr
          refine scanLoop_spec dist x all cs (j + 1) a u (dist x c) htl hc hu' ?_ r hr
          intro t d ht hne hd
          rcases Nat.lt_succ_iff_lt_or_eq.1 ht with h | h
          · exact h2.le.trans (hl t d h hne hd)
          · rw [h, hj] at hd
            rw [Option.some.inj hd]
        · rw [if_neg h2] at hr
          refine scanLoop_spec dist x all cs (j + 1) a u l htl hc hu' ?_ r hr
          intro t d ht hne hd
          rcases Nat.lt_succ_iff_lt_or_eq.1 ht with h | h
          · exact hl t d h hne hd
          · rw [h, hj] at hd
            rw [← Option.some.inj hd]
            exact not_lt.1 h2

/-- Entries of `centroid_to_nearest_centroid_distances_` are lower bounds. -/
def NearOK (dist : V → V → K) (cs : List V) (near : List K) : Prop :=
  ∀ (i : Nat) c, cs[i]? = some c → ∃ v, near[i]? = some v ∧
    ∀ (j : Nat) o, cs[j]? = some o → j ≠ i → v ≤ dist c o

theorem BoundsOK.lt {dist : V → V → K} {cs : List V} {x : V} {q : Cached K}
    (h : BoundsOK dist cs x q) : q.assigned < cs.length := by
  obtain ⟨c, hc, _⟩ := h.upper
  exact (List.getElem?_eq_some_iff.1 hc).1

theorem swapSample_spec (inf : K) {dist : V → V → K} (hd : IsDist dist) {cs : List V} {near : List K}
    (hn : NearOK dist cs near) {x : V} {q : Cached K} (hq : BoundsOK dist cs x q)
    {pre post : List (V × Nat)} {sizes : List Nat} {sums : List V}
    (ht : Tally cs.length (pre ++ (x, q.assigned) :: post) sizes sums) (loss : K) :
    ∃ q' sizes' sums' loss', swapSample inf dist cs near x q sizes sums loss =
        some (q', sizes', sums', loss') ∧
      BoundsOK dist cs x q' ∧ Nearest dist cs x q'.assigned ∧
      Tally cs.length (pre ++ (x, q'.assigned) :: post) sizes' sums' := by
  obtain ⟨c, hc, hu⟩ := hq.upper
  obtain ⟨na, hna, hnear⟩ := hn q.assigned c hc
  have hnearest : ∀ (u : K), dist x c ≤ u → u ≤ max (na / 2) q.lower →
      Nearest dist cs x q.assigned := by
    intro u hcu hle
    refine ⟨c, hc, ?_⟩
    intro c' hc'
    obtain ⟨j, hj⟩ := List.getElem?_of_mem hc'
    by_cases hja : j = q.assigned
    · rw [hja, hc] at hj
      rw [Option.some.inj hj]
    · rcases le_max_iff.1 hle with h | h
      · have h1 := hnear j c' hj hja
        have h2 := hd.triangle c x c'
        rw [hd.symm c x] at h2
        linarith
      · exact hcu.trans (h.trans (hq.lower j c' hja hj))
  simp only [swapSample, hna, Option.bind_eq_bind, Option.bind_some, gt_iff_lt]
  by_cases h1 : max (na / 2) q.lower < q.upper
  · rw [if_pos h1]
    simp only [hc, Option.bind_some]
    by_cases h2 : max (na / 2) q.lower < dist x c
    · rw [if_pos h2]
      obtain ⟨⟨c1, hc1, hu1⟩, hmin, hlow⟩ := scanLoop_spec dist x cs cs 0 q.assigned (dist x c) inf
        (fun t => by simp) ⟨c, hc, rfl⟩ (fun t c ht => absurd ht (Nat.not_lt_zero _))
        (fun t c ht => absurd ht (Nat.not_lt_zero _)) _ rfl
      generalize scanLoop dist x 0 cs (q.assigned, dist x c, inf) = r at hc1 hu1 hmin hlow ⊢
      have hnear' : Nearest dist cs x r.1 := by
        refine ⟨c1, hc1, ?_⟩
        intro c' hc'
        obtain ⟨j, hj⟩ := List.getElem?_of_mem hc'
        rw [← hu1]
        exact hmin j c' hj
      by_cases h3 : q.assigned = r.1
      · rw [if_neg (not_not.2 h3)]
        refine ⟨_, _, _, _, rfl, ⟨⟨c, hc, le_rfl⟩, ?_⟩, ?_, ht⟩
        · intro j c' hne hj
          exact hlow j c' (by rw [← h3]; exact hne) hj
        · show Nearest dist cs x q.assigned
          rw [h3]; exact hnear'
      · rw [if_pos h3]
        obtain ⟨s1, s2, e1, e2, ht'⟩ := tally_move ht hq.lt
          (List.getElem?_eq_some_iff.1 hc1).1 h3
        simp only [e1, e2, Option.bind_some]
        exact ⟨_, _, _, _, rfl, ⟨⟨c1, hc1, hu1.ge⟩, hlow⟩, hnear', ht'⟩
    · rw [if_neg h2]
      exact ⟨_, _, _, _, rfl, ⟨⟨c, hc, le_rfl⟩, hq.lower⟩,
        hnearest _ le_rfl (not_lt.1 h2), ht⟩
  · rw [if_neg h1]
    exact ⟨_, _, _, _, rfl, hq, hnearest _ hu (not_lt.1 h1), ht⟩

/-- The pairs of a sample with its assigned centroid. -/
def pairs (ps : List (V × Cached K)) : List (V × Nat) := ps.map fun p => (p.1, p.2.assigned)

theorem swapLoop_spec (inf : K) {dist : V → V → K} (hd : IsDist dist) {cs : List V} {near : List K}
    (hn : NearOK dist cs near) : ∀ (ps : List (V × Cached K)) (pre : List (V × Nat))
      (sizes : List Nat) (sums : List V) (loss : K),
    (∀ p ∈ ps, BoundsOK dist cs p.1 p.2) → Tally cs.length (pre ++ pairs ps) sizes sums →
    ∃ qs sizes' sums' loss', swapLoop inf dist cs near ps sizes sums loss =
        some (qs, sizes', sums', loss') ∧ qs.length = ps.length ∧
      (∀ p ∈ (ps.map Prod.fst).zip qs, BoundsOK dist cs p.1 p.2 ∧ Nearest dist cs p.1 p.2.assigned) ∧
      Tally cs.length (pre ++ pairs ((ps.map Prod.fst).zip qs)) sizes' sums'
  | [], pre, sizes, sums, loss, _, ht => ⟨[], sizes, sums, loss, rfl, rfl, by simp, by simpa using ht⟩
  | (x, q) :: ps, pre, sizes, sums, loss, hb, ht => by
    obtain ⟨q', s1, s2, l1, e, hq', hnear, ht'⟩ := swapSample_spec inf hd hn
      (hb (x, q) List.mem_cons_self) (pre := pre) (post := pairs ps) (by simpa [pairs] using ht) loss
    obtain ⟨qs, s3, s4, l2, e2, hlen, hall, ht2⟩ := swapLoop_spec inf hd hn ps
      (pre ++ [(x, q'.assigned)]) s1 s2 l1 (fun p hp => hb p (List.mem_cons_of_mem _ hp))
      (by simpa using ht')
    refine ⟨q' :: qs, s3, s4, l2, ?_, by simp [hlen], ?_, ?_⟩
    · simp only [swapLoop, e, Option.bind_eq_bind, Option.bind_some, e2]
    · intro p hp
      simp only [List.map_cons, List.zip_cons_cons, List.mem_cons] at hp
      rcases hp with rfl | hp
      · exact ⟨hq', hnear⟩
      · exact hall p hp
    · simpa [pairs] using ht2

/-- The invariant of the state between two steps. -/
structure HInv (dist : V → V → K) (xs : List V) (s : HState V K) : Prop where
  len : s.cached.length = xs.length
  bounds : ∀ p ∈ xs.zip s.cached, BoundsOK dist s.centroids p.1 p.2
  near : NearOK dist s.centroids s.near
  tally : Tally s.centroids.length (pairs (xs.zip s.cached)) s.sizes s.sums

theorem updateCentroids_get {cs : List V} {ps : List (V × Nat)} {sizes : List Nat} {sums : List V}
    (ht : Tally cs.length ps sizes sums) :
    (updateCentroids (K := K) cs sizes sums).length = cs.length ∧
    ∀ (j : Nat) c, cs[j]? = some c → (updateCentroids (K := K) cs sizes sums)[j]? =
      some (if members ps j = [] then c else mean (K := K) (members ps j)) := by
  have hl := ht.length
  refine ⟨by simp [updateCentroids, hl], ?_⟩
  intro j c hc
  have hj : j < cs.length := (List.getElem?_eq_some_iff.1 hc).1
  obtain ⟨h1, h2⟩ := ht.get hj
  have hz : (sizes.zip sums)[j]? = some ((members ps j).length, (members ps j).sum) := by
    rw [List.getElem?_zip_eq_some]; exact ⟨h1, h2⟩
  simp only [updateCentroids, List.getElem?_zipWith, hc, hz, hamerlyCentroid]
  congr 1
  by_cases h : members ps j = []
  · simp [h]
  · have : (members ps j).length ≠ 0 := fun e => h (List.length_eq_zero_iff.1 e)
    rw [if_pos this, if_neg h, mean]

theorem secondMax_le (lowest : K) (vel : List K) (hlow : ∀ v ∈ vel, lowest ≤ v) (hne : vel ≠ []) :
    ∃ m vm i v, Stats.maxPair vel = some (m, vm) ∧ Stats.secondMaxPair lowest vel = some (i, v) ∧
      (∀ w ∈ vel, w ≤ vm) ∧ ∀ (j : Nat) w, j ≠ m → vel[j]? = some w → w ≤ v := by
  obtain ⟨m, vm, e, hm, hmax, _⟩ := Stats.maxPair_spec vel hne
  by_cases h2 : 2 ≤ vel.length
  · obtain ⟨m', vm', i, v, e', e2, _, hle, _⟩ := Stats.C59_second_max_partial lowest vel hlow h2
    rw [e] at e'
    obtain ⟨rfl, rfl⟩ := Prod.mk.inj (Option.some.inj e')
    refine ⟨m, vm, i, v, e, e2, hmax, ?_⟩
    intro j w hj hw
    exact hle w (List.mem_eraseIdx_iff_getElem?.2 ⟨j, hj, hw⟩)
  · refine ⟨m, vm, m, vm, e, ?_, hmax, fun j w _ hw => hmax w (List.mem_of_getElem? hw)⟩
    simp only [Stats.secondMaxPair, e, Option.bind_eq_bind, Option.bind_some]
    rw [if_pos (by omega)]

theorem mapM_some {α β : Type} (f : α → Option β) (g : α → β) : ∀ (l : List α),
    (∀ a ∈ l, f a = some (g a)) → l.mapM f = some (l.map g)
  | [], _ => by simp
  | a :: l, h => by
    rw [List.mapM_cons, h a List.mem_cons_self, mapM_some f g l (fun b hb => h b (List.mem_cons_of_mem _ hb))]
    rfl

theorem pairs_map (xs : List V) (qs : List (Cached K)) (g : Cached K → Cached K)
    (hg : ∀ q, (g q).assigned = q.assigned) : pairs (xs.zip (qs.map g)) = pairs (xs.zip qs) := by
  simp [pairs, List.zip_map_right, hg]

theorem step_spec (inf lowest : K) (hlow : lowest ≤ 0) {dist : V → V → K} (hd : IsDist dist)
    {xs : List V} {s : HState V K} (h : HInv dist xs s) (hne : s.centroids ≠ []) :
    ∃ s', hamerlyStep inf lowest dist xs s = some s' ∧ HInv dist xs s' ∧
      s'.centroids.length = s.centroids.length ∧
      (∀ p ∈ pairs (xs.zip s'.cached), Nearest dist s.centroids p.1 p.2) ∧
      (∀ (j : Nat) c, s.centroids[j]? = some c → s'.centroids[j]? =
        some (if members (pairs (xs.zip s'.cached)) j = [] then c
              else mean (K := K) (members (pairs (xs.zip s'.cached)) j))) := by
  obtain ⟨qs, sizes, sums, loss, e, hlen, hall, ht⟩ := swapLoop_spec inf hd h.near
    (xs.zip s.cached) [] s.sizes s.sums s.loss h.bounds (by simpa using h.tally)
  have hfst : (xs.zip s.cached).map Prod.fst = xs := List.map_fst_zip h.len.ge
  rw [hfst] at hall ht
  have hlen' : qs.length = xs.length := by rw [hlen]; simp [h.len]
  simp only [List.nil_append] at ht
  obtain ⟨hcl, hcg⟩ := updateCentroids_get (K := K) ht
  generalize hcs : updateCentroids (K := K) s.centroids sizes sums = cs' at hcl hcg
  have hvel : ∀ (j : Nat) c c', s.centroids[j]? = some c → cs'[j]? = some c' →
      (List.zipWith dist s.centroids cs')[j]? = some (dist c c') := by
    intro j c c' h1 h2
    simp [List.getElem?_zipWith, h1, h2]
  obtain ⟨m, vm, i2, v2, em, e2, hmax, hsec⟩ := secondMax_le lowest
    (List.zipWith dist s.centroids cs') (by
      intro v hv
      rw [← List.map_uncurry_zip_eq_zipWith] at hv
      obtain ⟨p, _, rfl⟩ := List.mem_map.1 hv
      exact hlow.trans (hd.nonneg _ _)) (by
      intro hnil
      have := congrArg List.length hnil
      simp [hcl] at this
      exact hne this)
  have hcs' : ∀ {j : Nat} {c : V}, s.centroids[j]? = some c → ∃ c', cs'[j]? = some c' :=
    fun hc => ⟨_, hcg _ _ hc⟩
  have hback : ∀ {j : Nat} {c' : V}, cs'[j]? = some c' → ∃ c, s.centroids[j]? = some c := by
    intro j c' hc'
    have hj := (List.getElem?_eq_some_iff.1 hc').1
    rw [hcl] at hj
    exact ⟨_, List.getElem?_eq_getElem hj⟩
  let g : Cached K → Cached K := fun q => ⟨q.assigned,
    q.upper + ((List.zipWith dist s.centroids cs')[q.assigned]?).getD 0,
    q.lower - (if q.assigned = m then v2 else vm)⟩
  have hub : updateBounds lowest (List.zipWith dist s.centroids cs') qs = some (qs.map g) := by
    simp only [updateBounds, em, e2, Option.bind_eq_bind, Option.bind_some]
    apply mapM_some
    intro q hq
    obtain ⟨i, hi⟩ := List.getElem?_of_mem hq
    have hil := (List.getElem?_eq_some_iff.1 hi).1
    have hx : xs[i]? = some xs[i] := List.getElem?_eq_getElem (by omega)
    have hb := (hall (xs[i], q) (List.mem_of_getElem? (i := i)
      (List.getElem?_zip_eq_some.2 ⟨hx, hi⟩))).1
    obtain ⟨c, hc, _⟩ := hb.upper
    obtain ⟨c', hc'⟩ := hcs' hc
    simp only [g, hvel _ _ _ hc hc', Option.bind_some, Option.getD_some]
  have hpm : pairs (xs.zip (qs.map g)) = pairs (xs.zip qs) := pairs_map xs qs g (fun _ => rfl)
  refine ⟨{ centroids := cs', cached := qs.map g, near := neighborDistances inf dist cs',
            sizes := sizes, sums := sums, loss := loss },
    by simp only [hamerlyStep, e, hcs, hub, Option.bind_eq_bind, Option.bind_some], ?_, hcl, ?_, ?_⟩
  · refine ⟨by simp [hlen'], ?_, (neighborDistances_spec inf dist cs').2, ?_⟩
    · intro p hp
      obtain ⟨i, hi⟩ := List.getElem?_of_mem hp
      obtain ⟨hx, hq⟩ := List.getElem?_zip_eq_some.1 hi
      simp only [List.getElem?_map, Option.map_eq_some_iff] at hq
      obtain ⟨q, hq, hqe⟩ := hq
      have hb := (hall (p.1, q) (List.mem_of_getElem? (i := i)
        (List.getElem?_zip_eq_some.2 ⟨hx, hq⟩))).1
      obtain ⟨x, q'⟩ := p
      dsimp only at hb hx hqe ⊢
      subst hqe
      obtain ⟨c, hc, hu⟩ := hb.upper
      obtain ⟨c', hc'⟩ := hcs' hc
      refine ⟨⟨c', hc', ?_⟩, ?_⟩
      · simp only [g, hvel _ _ _ hc hc', Option.getD_some]
        have := hd.triangle x c c'
        linarith
      · intro j o' hj ho'
        obtain ⟨o, ho⟩ := hback ho'
        have h1 := hb.lower j o hj ho
        have hv := hvel j o o' ho ho'
        have h2 : dist o o' ≤ if q.assigned = m then v2 else vm := by
          split
          · rename_i hm
            exact hsec j _ (by rw [← hm]; exact hj) hv
          · exact hmax _ (List.mem_of_getElem? hv)
        have h3 := hd.triangle x o' o
        rw [hd.symm o' o] at h3
        simp only [g]
        linarith
    · dsimp only
      rw [hpm, hcl]; exact ht
  · dsimp only
    rw [hpm]
    intro p hp
    obtain ⟨q, hq, rfl⟩ := List.mem_map.1 hp
    exact (hall q hq).2
  · dsimp only
    rw [hpm]
    exact hcg

/-- No sample has two centroids at (almost) the same minimum distance. -/
def NoTies (eq : K → K → Bool) (dist : V → V → K) (xs cs : List V) : Prop :=
  ∀ x ∈ xs, ∀ (i j : Nat) c c', cs[i]? = some c → cs[j]? = some c' → i ≠ j →
    (∀ o ∈ cs, dist x c ≤ dist x o) → eq (dist x c') (dist x c) = false

theorem init_spec (inf vmax : K) (eq : K → K → Bool) (hrefl : ∀ a, eq a a = true) (dist : V → V → K)
    (xs cs : List V) (hne : cs ≠ []) (hinf : ∀ x ∈ xs, ∀ c ∈ cs, dist x c < inf)
    (hmax : ∀ x ∈ xs, ∀ c ∈ cs, dist x c < vmax) (hties : NoTies eq dist xs cs) :
    ∃ s, hamerlyInit inf vmax eq dist xs cs = some s ∧ HInv dist xs s ∧ s.centroids = cs := by
  obtain ⟨sizes, sums, e1, e2, ht⟩ := cluster_spec cs.length xs (nearestIndices inf dist xs cs)
    (by simp [nearestIndices]) (by
      intro i hi
      simp only [nearestIndices, List.mem_map] at hi
      obtain ⟨x, hx, rfl⟩ := hi
      obtain ⟨t, c, hc, he, _⟩ := nearest_spec inf dist cs x hne (hinf x hx)
      rw [he]
      exact (List.getElem?_eq_some_iff.1 hc).1)
  let g : V → Cached K := fun x => ⟨(nearestLoop dist x 0 cs (0, inf)).1, minLoop dist x cs inf,
    (secondLoop eq dist x cs (vmax, vmax)).2⟩
  have hc : List.zipWith (fun a (ul : K × K) => (⟨a, ul.1, ul.2⟩ : Cached K))
      (nearestIndices inf dist xs cs)
      ((nearestDistances inf dist xs cs).zip (secondDistances vmax eq dist xs cs)) = xs.map g := by
    apply List.ext_getElem?
    intro i
    simp only [nearestIndices, nearestDistances, secondDistances, List.getElem?_zipWith,
      List.getElem?_map, List.zip]
    cases xs[i]? <;> simp [g]
  have hz : xs.zip (xs.map g) = xs.map fun x => (x, g x) := by
    apply List.ext_getElem?
    intro i
    simp only [List.zip, List.getElem?_zipWith, List.getElem?_map]
    cases xs[i]? <;> simp
  have hz2 : xs.zip (nearestIndices inf dist xs cs) = xs.map fun x => (x, (g x).assigned) := by
    apply List.ext_getElem?
    intro i
    simp only [nearestIndices, List.zip, List.getElem?_zipWith, List.getElem?_map]
    cases xs[i]? <;> simp [g]
  refine ⟨{ centroids := cs, cached := xs.map g, near := neighborDistances inf dist cs,
            sizes := sizes, sums := sums, loss := (nearestDistances inf dist xs cs).sum },
    by simp only [hamerlyInit, e1, e2, hc, Option.bind_eq_bind, Option.bind_some], ?_, rfl⟩
  refine ⟨by simp, ?_, (neighborDistances_spec inf dist cs).2, ?_⟩
  · dsimp only
    rw [hz]
    intro p hp
    obtain ⟨x, hx, rfl⟩ := List.mem_map.1 hp
    obtain ⟨t, c, hct, he, hmin, hle, _⟩ := nearest_spec inf dist cs x hne (hinf x hx)
    obtain ⟨t2, c2, hct2, _, hmin2, hle2, _⟩ := nearest_spec vmax dist cs x hne (hmax x hx)
    obtain ⟨hf, _, hs⟩ := secondLoop_spec eq hrefl dist x cs vmax vmax [] (by simp) (by simp) _ rfl
    refine ⟨⟨c, by simpa only [g, he] using hct, by simp only [g, hmin]; exact le_rfl⟩, ?_⟩
    intro j o hj ho
    simp only [g, he] at hj ⊢
    rcases hs o (List.mem_of_getElem? ho) with h | h
    · exact h
    · have hcc : dist x c2 = dist x c :=
        le_antisymm (hle2 c (List.mem_of_getElem? hct)) (hle c2 (List.mem_of_getElem? hct2))
      rw [hf, hmin2, hcc, hties x hx t j c o hct ho (Ne.symm hj) hle] at h
      exact absurd h (by simp)
  · dsimp only
    rw [hz, pairs, List.map_map]
    rw [hz2] at ht
    exact ht

end Verif.KMeans
