import Verif.Lemmas.KMeansConvergence
import Verif.Model.KMeans

/-
Lemmas for the number of Hamerly steps (C88): a sample that is assigned to a nearest centroid stays there.
-/

namespace Verif.KMeans

section Stay

variable {V K : Type} [LinearOrder K] [Field K]

theorem scanLoop_stay (dist : V → V → K) (x : V) : ∀ (cs : List V) (j a : Nat) (u l : K),
    (∀ c ∈ cs, u ≤ dist x c) → (scanLoop dist x j cs (a, u, l)).1 = a
  | [], _, _, _, _, _ => rfl
  | c :: cs, j, a, u, l, h => by
    have h1 := h c (by simp)
    have h2 : ∀ c ∈ cs, u ≤ dist x c := fun c hc => h c (by simp [hc])
    unfold scanLoop
    split
    · rw [if_neg (not_lt.2 h1)]
      split
      · exact scanLoop_stay dist x cs _ _ _ _ h2
      · exact scanLoop_stay dist x cs _ _ _ _ h2
    · exact scanLoop_stay dist x cs _ _ _ _ h2

theorem swapSample_stay [AddCommGroup V] [Module K V] (inf : K) (dist : V → V → K) (cs : List V) (near : List K)
    (x : V) (s : Cached K) (sizes : List Nat) (sums : List V) (loss : K) (h : Nearest dist cs x s.assigned)
    {r : Cached K × List Nat × List V × K} (hr : swapSample inf dist cs near x s sizes sums loss = some r) :
    r.1.assigned = s.assigned := by
  obtain ⟨c, hc, hall⟩ := h
  have hst := scanLoop_stay dist x cs 0 s.assigned (dist x c) inf hall
  unfold swapSample at hr
  rcases hn : near[s.assigned]? with _ | na
  · rw [hn] at hr
    exact absurd hr (by simp)
  · rw [hn] at hr
    simp only [Option.bind_eq_bind, Option.bind_some, hc] at hr
    split at hr
    · split at hr
      · rw [if_neg (by rw [hst]; simp)] at hr
        rw [← Option.some.inj hr]
      · rw [← Option.some.inj hr]
    · rw [← Option.some.inj hr]

theorem swapLoop_stay [AddCommGroup V] [Module K V] (inf : K) (dist : V → V → K) (cs : List V) (near : List K) :
    ∀ (ps : List (V × Cached K)) (sizes : List Nat) (sums : List V) (loss : K)
      (_ : ∀ p ∈ ps, Nearest dist cs p.1 p.2.assigned) {r : List (Cached K) × List Nat × List V × K}
      (_ : swapLoop inf dist cs near ps sizes sums loss = some r),
      r.1.map (·.assigned) = ps.map fun p => p.2.assigned
  | [], _, _, _, _, r, hr => by
    rw [swapLoop] at hr
    rw [← Option.some.inj hr]
    rfl
  | (x, s) :: ps, sizes, sums, loss, h, r, hr => by
    rw [swapLoop] at hr
    rcases h1 : swapSample inf dist cs near x s sizes sums loss with _ | q
    · rw [h1] at hr
      exact absurd hr (by simp)
    · rw [h1] at hr
      simp only [Option.bind_eq_bind, Option.bind_some] at hr
      rcases h2 : swapLoop inf dist cs near ps q.2.1 q.2.2.1 q.2.2.2 with _ | q'
      · rw [h2] at hr
        exact absurd hr (by simp)
      · rw [h2] at hr
        simp only [Option.bind_some] at hr
        rw [← Option.some.inj hr]
        simp only [List.map_cons]
        rw [swapSample_stay inf dist cs near x s sizes sums loss (h (x, s) (by simp)) h1,
          swapLoop_stay inf dist cs near ps _ _ _ (fun p hp => h p (by simp [hp])) h2]

theorem mapM_assigned (f : Cached K → Option (Cached K)) (hf : ∀ s s', f s = some s' → s'.assigned = s.assigned) :
    ∀ (l l' : List (Cached K)), l.mapM f = some l' → l'.map (·.assigned) = l.map (·.assigned)
  | [], l', h => by
    simp only [List.mapM_nil] at h
    rw [← Option.some.inj h]
  | s :: l, l', h => by
    rw [List.mapM_cons] at h
    rcases h1 : f s with _ | s'
    · rw [h1] at h; exact absurd h (by simp)
    · rcases h2 : l.mapM f with _ | l''
      · rw [h1, h2] at h; exact absurd h (by simp)
      · rw [h1, h2] at h
        simp only [Option.bind_eq_bind, Option.bind_some] at h
        rw [← Option.some.inj h, List.map_cons, List.map_cons, hf s s' h1, mapM_assigned f hf l l'' h2]

/-- A step that starts with every sample at a nearest centroid moves no sample. -/
theorem hamerlyStep_stay [AddCommGroup V] [Module K V] (inf lowest : K) (dist : V → V → K) (xs : List V)
    (s s' : HState V K) (hlen : s.cached.length = xs.length)
    (h : ∀ p ∈ xs.zip (s.cached.map (·.assigned)), Nearest dist s.centroids p.1 p.2)
    (hs : hamerlyStep inf lowest dist xs s = some s') :
    s'.cached.map (·.assigned) = s.cached.map (·.assigned) := by
  unfold hamerlyStep at hs
  rcases h1 : swapLoop inf dist s.centroids s.near (xs.zip s.cached) s.sizes s.sums s.loss with _ | r
  · rw [h1] at hs; exact absurd hs (by simp)
  · rw [h1] at hs
    simp only [Option.bind_eq_bind, Option.bind_some] at hs
    have h2 := swapLoop_stay inf dist s.centroids s.near _ _ _ _ (by
      intro p hp
      refine h (p.1, p.2.assigned) ?_
      rw [List.zip_map_right]
      exact List.mem_map.2 ⟨p, hp, rfl⟩) h1
    rcases h3 : updateBounds lowest (List.zipWith dist s.centroids
        (updateCentroids (K := K) s.centroids r.2.1 r.2.2.1)) r.1 with _ | q
    · rw [h3] at hs; exact absurd hs (by simp)
    · rw [h3] at hs
      simp only [Option.bind_some] at hs
      rw [← Option.some.inj hs]
      have h4 : q.map (·.assigned) = r.1.map (·.assigned) := by
        unfold updateBounds at h3
        rcases hm : Stats.maxPair (List.zipWith dist s.centroids
            (updateCentroids (K := K) s.centroids r.2.1 r.2.2.1)) with _ | m
        · rw [hm] at h3; exact absurd h3 (by simp)
        · rcases hm' : Stats.secondMaxPair lowest (List.zipWith dist s.centroids
              (updateCentroids (K := K) s.centroids r.2.1 r.2.2.1)) with _ | m'
          · rw [hm, hm'] at h3; exact absurd h3 (by simp)
          · rw [hm, hm'] at h3
            simp only [Option.bind_eq_bind, Option.bind_some] at h3
            refine mapM_assigned _ ?_ _ _ h3
            intro c c' hc
            rcases hv : (List.zipWith dist s.centroids
              (updateCentroids (K := K) s.centroids r.2.1 r.2.2.1))[c.assigned]? with _ | v
            · rw [hv] at hc; exact absurd hc (by simp)
            · rw [hv] at hc
              simp only [Option.bind_some] at hc
              rw [← Option.some.inj hc]
      rw [h4, h2, show (fun p : V × Cached K => p.2.assigned) = (fun c : Cached K => c.assigned) ∘ Prod.snd from rfl,
        ← List.map_map, List.map_snd_zip hlen.le]

end Stay

namespace Alternates

variable {nf : Nat} {xs : List (Fin nf → ℝ)} {k : Nat} {c : Nat → List (Fin nf → ℝ)} {a : Nat → List Nat}

/-- A step that does not lower the cost moves no centroid that has samples. -/
theorem repeat_of_cost (h : Alternates xs k c a) (u : Nat)
    (e : cost (c (u + 1)) (xs.zip (a u)) ≤ cost (c (u + 2)) (xs.zip (a (u + 1)))) (j : Nat) (hj : j < k)
    (hm : members (xs.zip (a (u + 1))) j ≠ []) : (c (u + 2))[j]? = (c (u + 1))[j]? := by
  have hle : cost (c (u + 1)) (xs.zip (a (u + 1))) ≤ cost (c (u + 2)) (xs.zip (a (u + 1))) :=
    (h.cost_step u).2.trans e
  have := cost_means_eq (c (u + 1)) (c (u + 2)) (xs.zip (a (u + 1)))
    (by intro p hp; rw [h.lenC]; exact h.index_lt _ p hp)
    (by intro j hj hm; rw [h.lenC] at hj; exact h.getD_mean (u + 1) hj hm) hle j
    (by rw [h.lenC]; exact hj) hm
  have l1 : j < (c (u + 1)).length := by rw [h.lenC]; exact hj
  have l2 : j < (c (u + 2)).length := by rw [h.lenC]; exact hj
  rw [List.getD_eq_getElem?_getD, List.getD_eq_getElem?_getD, List.getElem?_eq_getElem l1,
    List.getElem?_eq_getElem l2] at this
  rw [List.getElem?_eq_getElem l1, List.getElem?_eq_getElem l2]
  simpa using this.symm

/-- When centroids without samples stay, and the assignment stays with the centroids, the centroids are
constant from step `k ^ n` on. -/
theorem bounded_keep (h : Alternates xs k c a)
    (hkeep : ∀ t j, j < k → members (xs.zip (a t)) j = [] → (c (t + 1))[j]? = (c t)[j]?)
    (hstay : ∀ t, c (t + 1) = c t → a (t + 1) = a t) :
    ∀ t, k ^ xs.length ≤ t → c t = c (k ^ xs.length) := by
  obtain ⟨i, j, hij, hj, e⟩ := h.pigeonhole
  have hanti : Antitone fun t => cost (c (t + 1)) (xs.zip (a t)) :=
    antitone_nat_of_succ_le fun t => (h.cost_step t).1.trans (h.cost_step t).2
  have hle : cost (c (i + 1)) (xs.zip (a i)) ≤ cost (c (i + 2)) (xs.zip (a (i + 1))) := by
    have h1 : cost (c (j + 1)) (xs.zip (a j)) ≤ cost (c (i + 2)) (xs.zip (a (i + 1))) :=
      hanti (show i + 1 ≤ j by omega)
    rw [h.cost_eq j, ← e, ← h.cost_eq i] at h1
    exact h1
  have first : c (i + 2) = c (i + 1) := by
    apply List.ext_getElem?
    intro m
    by_cases hm : m < k
    · by_cases he : members (xs.zip (a (i + 1))) m = []
      · exact hkeep (i + 1) m hm he
      · exact h.repeat_of_cost i hle m hm he
    · rw [List.getElem?_eq_none (by rw [h.lenC]; omega), List.getElem?_eq_none (by rw [h.lenC]; omega)]
  have next : ∀ t, c (t + 1) = c t → c (t + 2) = c (t + 1) := by
    intro t ht
    have ha := hstay t ht
    apply List.ext_getElem?
    intro m
    by_cases hm : m < k
    · by_cases he : members (xs.zip (a (t + 1))) m = []
      · exact hkeep (t + 1) m hm he
      · rw [h.means (t + 1) m hm he, h.means t m hm (by rw [← ha]; exact he), ha]
    · rw [List.getElem?_eq_none (by rw [h.lenC]; omega), List.getElem?_eq_none (by rw [h.lenC]; omega)]
  have all : ∀ m, c (i + 1 + m + 1) = c (i + 1 + m) ∧ c (i + 1 + m) = c (i + 1) := by
    intro m
    induction m with
    | zero => exact ⟨first, rfl⟩
    | succ m ih => exact ⟨next _ ih.1, ih.1.trans ih.2⟩
  have main : ∀ t, i + 1 ≤ t → c t = c (i + 1) := by
    intro t ht
    have := (all (t - (i + 1))).2
    rwa [show i + 1 + (t - (i + 1)) = t by omega] at this
  intro t ht
  rw [main t (by omega), main (k ^ xs.length) (by omega)]

end Alternates

end Verif.KMeans
