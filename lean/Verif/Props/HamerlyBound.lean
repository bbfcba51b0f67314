import Verif.Props.KMeansConvergence
import Verif.Lemmas.HamerlyBound

/-
The number of Hamerly steps until the centroids stop, and `fit` with Hamerly, which is the default algorithm
(C88).
-/

namespace Verif.KMeans

variable {nf : Nat}

/-- Initial centroids that Hamerly handles right (C43): at least one, at distances from the samples below the
two largest values of the type, and no sample with (almost) equally near nearest centroids. -/
structure GoodStart (inf vmax eps : ℝ) (xs cs : List (Fin nf → ℝ)) : Prop where
  ne : cs ≠ []
  belowInf : ∀ x ∈ xs, ∀ c ∈ cs, edist x c < inf
  belowMax : ∀ x ∈ xs, ∀ c ∈ cs, edist x c < vmax
  noTies : NoTies (Sorting.eqEps eps) edist xs cs

theorem hamerly_traj (inf vmax lowest eps : ℝ) (heps : 0 ≤ eps) (hlow : lowest ≤ 0)
    (xs cs : List (Fin nf → ℝ)) (hg : GoodStart inf vmax eps xs cs) :
    ∃ traj : Nat → HState (Fin nf → ℝ) ℝ,
      hamerlyInit inf vmax (Sorting.eqEps eps) edist xs cs = some (traj 0) ∧ (traj 0).centroids = cs ∧
      (∀ t, hamerlyStep inf lowest edist xs (traj t) = some (traj (t + 1))) ∧
      (∀ t, runN (hamerlyStep inf lowest edist xs) t (traj 0) = some (traj t)) ∧
      Alternates xs cs.length (fun t => (traj t).centroids)
        (fun t => (traj (t + 1)).cached.map (·.assigned)) ∧
      ∀ t, cs.length ^ xs.length ≤ t → (traj t).centroids = (traj (cs.length ^ xs.length)).centroids := by
  obtain ⟨hne, hinf, hmax, hties⟩ := hg
  have run := C43_hamerly_partial inf vmax lowest eps heps hlow edist edist_isDist xs cs hne hinf hmax
    hties
  obtain ⟨s0, e0, _, h0⟩ := init_spec inf vmax (Sorting.eqEps eps)
    (by intro a; simp [Sorting.eqEps, heps]) edist xs cs hne hinf hmax hties
  let traj : Nat → HState (Fin nf → ℝ) ℝ := fun t =>
    (runN (hamerlyStep inf lowest edist xs) t s0).getD s0
  have htraj : ∀ t, runN (hamerlyStep inf lowest edist xs) t s0 = some (traj t) := by
    intro t
    obtain ⟨t0, s, _, f0, e, _⟩ := run t
    rw [e0] at f0
    obtain rfl := Option.some.inj f0
    simp only [traj, e, Option.getD_some]
  have hz : traj 0 = s0 := rfl
  have hstep : ∀ t, hamerlyStep inf lowest edist xs (traj t) = some (traj (t + 1)) := by
    intro t
    have h1 := htraj (t + 1)
    simp only [runN, htraj t, Option.bind_some] at h1
    exact h1
  have hspec : ∀ t, (traj (t + 1)).cached.length = xs.length ∧
      (traj (t + 1)).centroids.length = cs.length ∧
      (∀ p ∈ xs.zip ((traj (t + 1)).cached.map (·.assigned)), Nearest edist (traj t).centroids p.1 p.2) ∧
      (∀ (j : Nat) c, (traj t).centroids[j]? = some c → (traj (t + 1)).centroids[j]? =
        some (if members (xs.zip ((traj (t + 1)).cached.map (·.assigned))) j = [] then c
              else mean (K := ℝ) (members (xs.zip ((traj (t + 1)).cached.map (·.assigned))) j))) := by
    intro t
    obtain ⟨t0, s, s', f0, e, e', h1, h2, h3, h4, _⟩ := run t
    rw [e0] at f0
    obtain rfl := Option.some.inj f0
    have es := htraj t
    rw [e] at es
    obtain rfl := Option.some.inj es
    have es' := hstep t
    rw [e'] at es'
    obtain rfl := Option.some.inj es'
    exact ⟨h1, h2, h3, h4⟩
  have hlenC : ∀ t, (traj t).centroids.length = cs.length := by
    intro t
    cases t with
    | zero => rw [hz, h0]
    | succ t => exact (hspec t).2.1
  have halt : Alternates xs cs.length (fun t => (traj t).centroids)
      (fun t => (traj (t + 1)).cached.map (·.assigned)) := by
    refine ⟨hlenC, fun t => by simp [(hspec t).1], fun t => (hspec t).2.2.1, ?_⟩
    intro t j hj hm
    have hj' : j < (traj t).centroids.length := by rw [hlenC]; exact hj
    rw [(hspec t).2.2.2 j _ (List.getElem?_eq_getElem hj'), if_neg hm]
  refine ⟨traj, e0, by rw [hz, h0], hstep, htraj, halt, ?_⟩
  refine halt.bounded_keep ?_ ?_
  · intro t j hj hm
    have hj' : j < (traj t).centroids.length := by rw [hlenC]; exact hj
    rw [(hspec t).2.2.2 j _ (List.getElem?_eq_getElem hj'), if_pos hm, List.getElem?_eq_getElem hj']
  · intro t ht
    have ht' : (traj (t + 1)).centroids = (traj t).centroids := ht
    refine hamerlyStep_stay inf lowest edist xs (traj (t + 1)) (traj (t + 2)) (hspec t).1 ?_ (hstep _)
    rw [ht']
    exact (hspec t).2.2.1

/-- **C88**, Hamerly: from initial centroids without tied nearest centroids the centroids do not move any more
after `k ^ n` steps (`n` samples, `k` centroids), and from then on they are a local optimum together with the
assignment that the buffers hold.  Missing: initial ties, as in C43. -/
theorem C88_hamerly_bound_partial (inf vmax lowest eps : ℝ) (heps : 0 ≤ eps) (hlow : lowest ≤ 0)
    (xs cs : List (Fin nf → ℝ)) (hg : GoodStart inf vmax eps xs cs) :
    ∃ s0, ∃ C : List (Fin nf → ℝ), hamerlyInit inf vmax (Sorting.eqEps eps) edist xs cs = some s0 ∧
      C.length = cs.length ∧ (∃ a, LocalOptimum xs C a) ∧
      (∀ n, cs.length ^ xs.length ≤ n → ∃ s, runN (hamerlyStep inf lowest edist xs) n s0 = some s ∧
        s.centroids = C) ∧
      (∀ n, cs.length ^ xs.length < n → ∃ s, runN (hamerlyStep inf lowest edist xs) n s0 = some s ∧
        s.centroids = C ∧ LocalOptimum xs C (s.cached.map (·.assigned))) := by
  obtain ⟨traj, e0, h0, hstep, htraj, halt, hb⟩ := hamerly_traj inf vmax lowest eps heps hlow xs cs hg
  refine ⟨traj 0, (traj (cs.length ^ xs.length)).centroids, e0, halt.lenC _,
    ⟨_, optimum_of_repeat halt (cs.length ^ xs.length) (hb _ (by omega))⟩,
    fun n hn => ⟨traj n, htraj n, hb n hn⟩, fun n hn => ⟨traj n, htraj n, hb n (by omega), ?_⟩⟩
  obtain ⟨m, rfl⟩ : ∃ m, n = m + 1 := ⟨n - 1, by omega⟩
  have := optimum_of_repeat halt m ((hb (m + 1) (by omega)).trans (hb m (by omega)).symm)
  simp only [hb m (by omega)] at this
  exact this

/-- **C88**, one run of `fit` with Hamerly steps, early stopping and tolerance 0: when it stops before
`max_iter` steps it has reached a local optimum.  Missing: initial ties. -/
theorem C88_hamerly_stopped_partial (h0 : nf ≠ 0) (inf vmax lowest eps : ℝ) (heps : 0 ≤ eps)
    (hlow : lowest ≤ 0) (xs cs : List (Fin nf → ℝ)) (hg : GoodStart inf vmax eps xs cs) (o : Options)
    (hes : o.earlyStopping = true) :
    ∃ T s0 s, T ≤ o.maxIter ∧ hamerlyInit inf vmax (Sorting.eqEps eps) edist xs cs = some s0 ∧
      iterate (hamerlyStep inf lowest edist xs) (·.centroids) sameCentroids o o.maxIter s0 cs [] 0 =
        some (s, s.centroids) ∧
      runN (hamerlyStep inf lowest edist xs) T s0 = some s ∧ s.centroids.length = cs.length ∧
      (T < o.maxIter → LocalOptimum xs s.centroids (s.cached.map (·.assigned))) := by
  obtain ⟨traj, e0, hcs, hstep, htraj, halt, hb⟩ := hamerly_traj inf vmax lowest eps heps hlow xs cs hg
  obtain ⟨T, hT, e, hset, _⟩ := C44_early_stopping (hamerlyStep inf lowest edist xs) (·.centroids)
    sameCentroids [] o hes traj hstep cs
  have hr : (if T = 0 then cs else (traj T).centroids) = (traj T).centroids := by
    split
    · rename_i h
      rw [h, hcs]
    · rfl
  rw [hr] at e
  refine ⟨T, traj 0, traj T, hT, e0, e, htraj T, halt.lenC T, ?_⟩
  intro hlt
  obtain ⟨hp, hrep⟩ := hset hlt
  have h1 := hrep 0 (by omega)
  rw [Repeats, sameCentroids_iff h0] at h1
  obtain ⟨u, rfl⟩ : ∃ u, T = u + 1 := ⟨T - 1, by omega⟩
  simp only [Nat.add_sub_cancel, Nat.sub_zero] at h1
  by_cases hu : u = 0
  · subst hu
    rw [if_pos rfl] at h1
    have := halt.lenC 1
    simp only [h1] at this
    exact absurd (List.length_eq_zero_iff.1 this.symm) hg.ne
  · rw [if_neg hu] at h1
    have hopt := optimum_of_repeat halt u h1
    rw [h1]
    exact hopt

/-- **C88**, `fit` with Hamerly, the default algorithm (KMeans.hpp:242, 261), and tolerance 0: with `max_iter`
at least `k ^ n` it returns a local optimum, with or without early stopping and for every patience.  Missing:
candidates with initial ties. -/
theorem C88_hamerly_fit_partial (h0 : nf ≠ 0) (inf vmax lowest eps : ℝ) (heps : 0 ≤ eps) (hlow : lowest ≤ 0)
    (xs : List (Fin nf → ℝ)) (o : Options) (k : Nat) (stored : List (Fin nf → ℝ))
    (drawn : Nat → List (Fin nf → ℝ))
    (hd : ∀ i, (drawn i).length = k ∧ GoodStart inf vmax eps xs (drawn i))
    (hs : stored = [] ∨ stored.length = k ∧ GoodStart inf vmax eps xs stored)
    (hn : stored = [] → o.nInit ≠ 0) (hiter : k ^ xs.length ≤ o.maxIter) :
    ∃ r a, fit (hamerlyInit inf vmax (Sorting.eqEps eps) edist xs) (hamerlyStep inf lowest edist xs)
        (·.centroids) (·.loss) sameCentroids List.isEmpty [] o stored drawn = some r ∧ r.length = k ∧
      LocalOptimum xs r a := by
  have hcand : ∀ c ∈ candidates List.isEmpty o stored drawn,
      c.length = k ∧ GoodStart inf vmax eps xs c := by
    intro c hc
    rw [candidates] at hc
    split at hc
    · obtain ⟨i, _, rfl⟩ := List.mem_map.1 hc
      exact hd i
    · rename_i h
      rw [List.mem_singleton] at hc
      subst hc
      rcases hs with h' | h'
      · exact absurd (by simp [h']) h
      · exact h'
  have hrun : ∀ c ∈ candidates List.isEmpty o stored drawn,
      ∃ (s0 : HState (Fin nf → ℝ) ℝ) (R : HState (Fin nf → ℝ) ℝ × List (Fin nf → ℝ)),
      hamerlyInit inf vmax (Sorting.eqEps eps) edist xs c = some s0 ∧
      iterate (hamerlyStep inf lowest edist xs) (·.centroids) sameCentroids o o.maxIter s0 c [] 0 =
        some R ∧ R.2.length = k ∧ ∃ a, LocalOptimum xs R.2 a := by
    intro c hc
    obtain ⟨hlen, hg⟩ := hcand c hc
    obtain ⟨s0, C, e0, hC, ⟨a, ha⟩, hall, _⟩ := C88_hamerly_bound_partial inf vmax lowest eps heps hlow xs c hg
    cases hes : o.earlyStopping with
    | true =>
      obtain ⟨T, t0, s, hT, f0, e, hrunT, hl, hearly⟩ :=
        C88_hamerly_stopped_partial h0 inf vmax lowest eps heps hlow xs c hg o hes
      refine ⟨t0, (s, s.centroids), f0, e, hl.trans hlen, ?_⟩
      rcases Nat.lt_or_ge T o.maxIter with h | h
      · exact ⟨_, hearly h⟩
      · obtain ⟨s', e', hc'⟩ := hall T (by rw [hlen]; omega)
        rw [e0] at f0
        obtain rfl := Option.some.inj f0
        rw [hrunT] at e'
        obtain rfl := Option.some.inj e'
        rw [← hc'] at ha
        exact ⟨_, ha⟩
    | false =>
      obtain ⟨traj, f0, hcs, hstep, htraj, halt, hb⟩ := hamerly_traj inf vmax lowest eps heps hlow xs c hg
      have e := C44_all_iterations (hamerlyStep inf lowest edist xs) (·.centroids) sameCentroids [] o hes
        traj hstep c
      have hpos : 0 < k ^ xs.length := Nat.pow_pos (by
        rw [← hlen]
        exact List.length_pos_iff.2 hg.ne)
      rw [if_neg (by omega)] at e
      refine ⟨traj 0, _, f0, e, (halt.lenC _).trans hlen, ?_⟩
      obtain ⟨s', e', hc'⟩ := hall o.maxIter (by rw [hlen]; exact hiter)
      rw [e0] at f0
      obtain rfl := Option.some.inj f0
      rw [htraj] at e'
      obtain rfl := Option.some.inj e'
      rw [← hc'] at ha
      exact ⟨_, ha⟩
  classical
  let R : List (Fin nf → ℝ) → HState (Fin nf → ℝ) ℝ × List (Fin nf → ℝ) := fun c =>
    if h : c ∈ candidates List.isEmpty o stored drawn then
      (hrun c h).choose_spec.choose
    else (⟨[], [], [], [], [], 0⟩, [])
  have hR : ∀ c ∈ candidates List.isEmpty o stored drawn,
      ∃ s0, hamerlyInit inf vmax (Sorting.eqEps eps) edist xs c = some s0 ∧
      iterate (hamerlyStep inf lowest edist xs) (·.centroids) sameCentroids o o.maxIter s0 c [] 0 =
        some (R c) ∧ (R c).2.length = k ∧ ∃ a, LocalOptimum xs (R c).2 a := by
    intro c hc
    simp only [R, dif_pos hc]
    exact ⟨_, (hrun c hc).choose_spec.choose_spec⟩
  have hne : candidates List.isEmpty o stored drawn ≠ [] := by
    rw [candidates]
    split
    · rename_i h
      have := hn (by simpa using h)
      simpa using this
    · simp
  obtain ⟨i, c, hc, e, _⟩ := C44_best (hamerlyInit inf vmax (Sorting.eqEps eps) edist xs)
    (hamerlyStep inf lowest edist xs) (·.centroids) (·.loss) sameCentroids List.isEmpty [] o stored drawn R
    (fun c hc => by obtain ⟨s0, h1, h2, _⟩ := hR c hc; exact ⟨s0, h1, h2⟩) hne
  obtain ⟨s0, _, _, hl, a, ha⟩ := hR c (List.mem_of_getElem? hc)
  exact ⟨_, a, e, hl, ha⟩

theorem edist_one (a b : ℝ) : edist ![a] ![b] = |a - b| := by
  simp [edist, sq, Real.sqrt_sq_eq_abs]

/-- The hypotheses hold for the samples 0, 1, 5 and the centroids 0, 4, with the comparison within 1/8. -/
example : GoodStart 1000 1000 (1 / 8) [![(0 : ℝ)], ![1], ![5]] [![0], ![4]] := by
  refine ⟨by simp, ?_, ?_, ?_⟩
  · intro x hx c hc
    simp only [List.mem_cons, List.not_mem_nil, or_false] at hx hc
    rcases hx with rfl | rfl | rfl <;> rcases hc with rfl | rfl <;> rw [edist_one] <;> norm_num
  · intro x hx c hc
    simp only [List.mem_cons, List.not_mem_nil, or_false] at hx hc
    rcases hx with rfl | rfl | rfl <;> rcases hc with rfl | rfl <;> rw [edist_one] <;> norm_num
  · intro x hx i j c c' hi hj hij _
    have h2 : ∀ (i : Nat) c, ([![(0 : ℝ)], ![4]] : List (Fin 1 → ℝ))[i]? = some c →
        i = 0 ∧ c = ![0] ∨ i = 1 ∧ c = ![4] := by
      intro i c h
      rcases i with _ | _ | i
      · simp at h; exact .inl ⟨rfl, h.symm⟩
      · simp at h; exact .inr ⟨rfl, h.symm⟩
      · simp at h
    simp only [List.mem_cons, List.not_mem_nil, or_false] at hx
    rcases h2 i c hi with ⟨rfl, rfl⟩ | ⟨rfl, rfl⟩ <;> rcases h2 j c' hj with ⟨rfl, rfl⟩ | ⟨rfl, rfl⟩ <;>
      first
      | exact absurd rfl hij
      | (rcases hx with rfl | rfl | rfl <;> simp only [Sorting.eqEps, edist_one, decide_eq_false_iff_not] <;>
          norm_num [abs_of_pos, abs_of_neg])

end Verif.KMeans
