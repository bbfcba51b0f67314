import Verif.Props.KMeansFit
import Verif.Lemmas.KMeansConvergence

/-
Lloyd's and Hamerly's iterations reach a fixed point after finitely many steps, and `fit` with the
default tolerance stops at one (C88).
-/

namespace Verif.KMeans

set_option linter.unusedSectionVars false

variable {nf : Nat}

theorem nearest_sq {cs : List (Fin nf → ℝ)} {x : Fin nf → ℝ} {i : Nat} :
    Nearest edist cs x i ↔ Nearest sq cs x i := by
  constructor
  · rintro ⟨c, hc, h⟩
    exact ⟨c, hc, fun c' hc' => (edist_le_iff _ _ _ _).1 (h c' hc')⟩
  · rintro ⟨c, hc, h⟩
    exact ⟨c, hc, fun c' hc' => (edist_le_iff _ _ _ _).2 (h c' hc')⟩

/-- What `LocalOptimum` gives: with the assignment fixed no other centroids are better, and with the
centroids fixed no other assignment is better. -/
theorem C88_no_improvement (xs cs : List (Fin nf → ℝ)) (a : List Nat) (h : LocalOptimum xs cs a) :
    (∀ cs' : List (Fin nf → ℝ), ((xs.zip a).map fun p => sq p.1 (cs.getD p.2 0)).sum ≤
      ((xs.zip a).map fun p => sq p.1 (cs'.getD p.2 0)).sum) ∧
    (∀ b : List Nat, b.length = xs.length → (∀ j ∈ b, j < cs.length) →
      ((xs.zip a).map fun p => sq p.1 (cs.getD p.2 0)).sum ≤
        ((xs.zip b).map fun p => sq p.1 (cs.getD p.2 0)).sum) := by
  obtain ⟨hl, hn, hm⟩ := h
  have hp : ∀ p ∈ xs.zip a, p.2 < cs.length := by
    intro p hp
    obtain ⟨v, hv, _⟩ := hn p hp
    exact (List.getElem?_eq_some_iff.1 hv).1
  constructor
  · intro cs'
    rw [sum_by_cluster cs.length (fun x j => sq x (cs.getD j 0)) _ hp,
      sum_by_cluster cs.length (fun x j => sq x (cs'.getD j 0)) _ hp]
    refine Finset.sum_le_sum fun j hj => ?_
    by_cases he : members (xs.zip a) j = []
    · simp [he]
    · have hj' := Finset.mem_range.1 hj
      have := hm j _ (List.getElem?_eq_getElem hj') he
      rw [List.getD_eq_getElem?_getD, List.getElem?_eq_getElem hj', Option.getD_some, this]
      exact mean_le _ he _
  · intro b hb hlt
    exact cost_nearest_le xs cs a b hl hb (fun p hp => nearest_sq.2 (hn p hp))
      (fun p hp => hlt _ (List.of_mem_zip hp).2)

/-! ### Lloyd -/

/-- The centroids of a Lloyd step as a function of the assignment. -/
noncomputable def lloydNext (xs : List (Fin nf → ℝ)) (k : Nat) (a : List Nat) : List (Fin nf → ℝ) :=
  (List.range k).map fun j =>
    if members (xs.zip a) j = [] then 0 else mean (K := ℝ) (members (xs.zip a) j)

theorem lloyd_traj (inf B : ℝ) (xs cs : List (Fin nf → ℝ)) (hne : cs ≠ [])
    (hx : ∀ x ∈ xs, InBox B x) (hc : ∀ c ∈ cs, InBox B c) (hinf : 2 * B * nf < inf) :
    ∃ traj : Nat → LState (Fin nf → ℝ) ℝ, traj 0 = lloydInit inf edist xs cs ∧
      (∀ t, runN (lloydStep inf edist xs) t (lloydInit inf edist xs cs) = some (traj t)) ∧
      (∀ t, lloydStep inf edist xs (traj t) = some (traj (t + 1))) ∧
      (∀ t, traj t = lloydInit inf edist xs (traj t).centroids) ∧
      (∀ t, (traj (t + 1)).centroids = lloydNext xs cs.length (traj t).assigned) ∧
      Alternates xs cs.length (fun t => (traj t).centroids) (fun t => (traj t).assigned) := by
  have run := C42_lloyd_run inf B xs cs hne hx hc hinf
  let traj : Nat → LState (Fin nf → ℝ) ℝ := fun t =>
    (runN (lloydStep inf edist xs) t (lloydInit inf edist xs cs)).getD (lloydInit inf edist xs cs)
  have htraj : ∀ t, runN (lloydStep inf edist xs) t (lloydInit inf edist xs cs) = some (traj t) := by
    intro t
    obtain ⟨s, _, e, _⟩ := run t
    simp only [traj, e, Option.getD_some]
  have hstep : ∀ t, lloydStep inf edist xs (traj t) = some (traj (t + 1)) := by
    intro t
    have h1 := htraj (t + 1)
    simp only [runN, htraj t, Option.bind_some] at h1
    exact h1
  have hinit : ∀ t, traj t = lloydInit inf edist xs (traj t).centroids ∧
      (traj t).centroids.length = cs.length ∧
      ∀ p ∈ xs.zip (traj t).assigned, Nearest edist (traj t).centroids p.1 p.2 := by
    intro t
    obtain ⟨s, _, e, _, h1, h2, h3, _⟩ := run t
    rw [htraj t] at e
    obtain rfl := Option.some.inj e
    exact ⟨h1, h2, h3⟩
  have hlenA : ∀ t, (traj t).assigned.length = xs.length := by
    intro t
    rw [(hinit t).1]
    simp [lloydInit, nearestIndices]
  have hbound : ∀ t, ∀ j ∈ (traj t).assigned, j < cs.length := by
    intro t j hj
    rw [← List.map_snd_zip (l₁ := xs) (hlenA t).le] at hj
    obtain ⟨p, hp, rfl⟩ := List.mem_map.1 hj
    obtain ⟨v, hv, _⟩ := (hinit t).2.2 p hp
    have := (List.getElem?_eq_some_iff.1 hv).1
    rwa [(hinit t).2.1] at this
  have hnext : ∀ t, (traj (t + 1)).centroids = lloydNext xs cs.length (traj t).assigned := by
    intro t
    obtain ⟨sizes, sums, e1, e2, ht⟩ := cluster_spec cs.length xs (traj t).assigned (hlenA t) (hbound t)
    have h := hstep t
    simp only [lloydStep, (hinit t).2.1, e1, e2, Option.bind_eq_bind, Option.bind_some] at h
    rw [← Option.some.inj h]
    simp only [lloydInit]
    apply List.ext_getElem?
    intro j
    by_cases hj : j < cs.length
    · obtain ⟨h1, h2⟩ := ht.get hj
      rw [List.getElem?_zipWith, h1, h2]
      simp only [lloydNext, List.getElem?_map, List.getElem?_range hj, Option.map_some, lloydCentroid,
        List.length_eq_zero_iff]
      congr 1
      split
      · rename_i hm
        rw [hm]; rfl
      · rfl
    · rw [List.getElem?_eq_none (by simp [ht.length]; omega),
        List.getElem?_eq_none (by simp [lloydNext]; omega)]
  refine ⟨traj, rfl, htraj, hstep, fun t => (hinit t).1, hnext, fun t => (hinit t).2.1, hlenA,
    fun t => (hinit t).2.2, ?_⟩
  intro t j hj hm
  simp only [hnext t, lloydNext, List.getElem?_map, List.getElem?_range hj, Option.map_some, if_neg hm]

/-- A state that repeats its centroids is a local optimum. -/
theorem optimum_of_repeat {xs : List (Fin nf → ℝ)} {k : Nat} {c : Nat → List (Fin nf → ℝ)}
    {a : Nat → List Nat} (h : Alternates xs k c a) (t : Nat) (e : c (t + 1) = c t) :
    LocalOptimum xs (c t) (a t) := by
  refine ⟨h.lenA t, fun p hp => nearest_sq.1 (h.near t p hp), ?_⟩
  intro j v hv hm
  have hj := (List.getElem?_eq_some_iff.1 hv).1
  rw [h.lenC] at hj
  have := h.means t j hj hm
  rw [e, hv] at this
  exact Option.some.inj this

/-- **C88**, Lloyd: after at most `k ^ n` steps (`n` samples, `k` centroids) the iteration has reached a
state that further steps do not change, and it is a local optimum. -/
theorem C88_lloyd (inf B : ℝ) (xs cs : List (Fin nf → ℝ)) (hne : cs ≠ [])
    (hx : ∀ x ∈ xs, InBox B x) (hc : ∀ c ∈ cs, InBox B c) (hinf : 2 * B * nf < inf) :
    ∃ s, lloydStep inf edist xs s = some s ∧
      (∀ n, cs.length ^ xs.length ≤ n →
        runN (lloydStep inf edist xs) n (lloydInit inf edist xs cs) = some s) ∧
      LocalOptimum xs s.centroids s.assigned := by
  obtain ⟨traj, h0, htraj, hstep, hinit, hnext, halt⟩ := lloyd_traj inf B xs cs hne hx hc hinf
  have hev := halt.eventually_reset 0 (by
    intro t j hj hm
    simp only [hnext t, lloydNext, List.getElem?_map, List.getElem?_range hj, Option.map_some, if_pos hm])
  have hb := halt.bounded hev (lloydNext xs cs.length) hnext (nearestIndices inf edist xs) (by
    intro t
    conv_lhs => rw [hinit t]
    simp only [lloydInit])
  have hconst : ∀ n, cs.length ^ xs.length ≤ n → traj n = traj (cs.length ^ xs.length) := by
    intro n hn
    rw [hinit n, hinit (cs.length ^ xs.length), hb n hn]
  refine ⟨traj (cs.length ^ xs.length), ?_, ?_, ?_⟩
  · rw [hstep, hconst _ (by omega)]
  · intro n hn
    rw [htraj, hconst n hn]
  · exact optimum_of_repeat halt _ (hb _ (by omega))

/-- The hypotheses are met by the points and centroids beside `C42_lloyd_run`; on the line, samples
0, 1, 5, 6, 10 with centroids 0 and 1 take three steps to the fixed point 1/2, 7. -/
example : (runN (lloydStep (1000 : ℚ) (fun a b => |a - b|) [0, 1, 5, 6, 10]) 2
      (lloydInit 1000 (fun a b => |a - b|) [0, 1, 5, 6, 10] [0, 1])).map (·.centroids) = some [1 / 2, 7] ∧
    (runN (lloydStep (1000 : ℚ) (fun a b => |a - b|) [0, 1, 5, 6, 10]) 3
      (lloydInit 1000 (fun a b => |a - b|) [0, 1, 5, 6, 10] [0, 1])).map (·.centroids) =
        some [1 / 2, 7] ∧
    (runN (lloydStep (1000 : ℚ) (fun a b => |a - b|) [0, 1, 5, 6, 10]) 1
      (lloydInit 1000 (fun a b => |a - b|) [0, 1, 5, 6, 10] [0, 1])).map (·.centroids) =
        some [0, 11 / 2] := by
  decide +kernel

/-! ### `fit` with Lloyd steps and the default tolerance -/

/-- The row-major data of the centroids, the container that `are_containers_equal` compares. -/
def flat (cs : List (Fin nf → ℝ)) : List ℝ := cs.flatMap List.ofFn

theorem containersEqual_zero : ∀ l r : List ℝ, containersEqual 0 l r = true ↔ l = r
  | [], [] => by simp [containersEqual]
  | [], _ :: _ => by simp [containersEqual]
  | _ :: _, [] => by simp [containersEqual]
  | a :: l, b :: r => by
    have ih := containersEqual_zero l r
    simp only [containersEqual, Bool.and_eq_true, decide_eq_true_eq, List.length_cons,
      Nat.add_right_cancel_iff, List.zipWith_cons_cons, List.all_cons, id_eq, List.cons.injEq] at ih ⊢
    rw [← ih]
    have : |a - b| ≤ 0 ↔ a = b := by rw [abs_nonpos_iff, sub_eq_zero]
    rw [this]
    tauto

theorem flat_injective (h0 : nf ≠ 0) : ∀ l r : List (Fin nf → ℝ), flat l = flat r → l = r
  | [], [], _ => rfl
  | [], b :: r, h => by
    have := congrArg List.length h
    simp [flat] at this
    exact absurd this (by omega)
  | a :: l, [], h => by
    have := congrArg List.length h
    simp [flat] at this
    exact absurd this.1 h0
  | a :: l, b :: r, h => by
    simp only [flat, List.flatMap_cons] at h
    obtain ⟨h1, h2⟩ := List.append_inj h (by simp)
    rw [List.ofFn_injective h1, flat_injective h0 l r h2]

/-- The comparison that `fit` makes with tolerance 0, the default (KMeans.hpp:67). -/
noncomputable def sameCentroids (c c' : List (Fin nf → ℝ)) : Bool := containersEqual 0 (flat c) (flat c')

theorem sameCentroids_iff (h0 : nf ≠ 0) (c c' : List (Fin nf → ℝ)) :
    sameCentroids c c' = true ↔ c = c' := by
  rw [sameCentroids, containersEqual_zero]
  exact ⟨flat_injective h0 c c', fun h => by rw [h]⟩

/-- **C88**, one run of `fit` with Lloyd steps, early stopping and tolerance 0: when it stops before
`max_iter` steps it has reached a local optimum. -/
theorem C88_stopped (h0 : nf ≠ 0) (inf B : ℝ) (xs cs : List (Fin nf → ℝ)) (hne : cs ≠ [])
    (hx : ∀ x ∈ xs, InBox B x) (hc : ∀ c ∈ cs, InBox B c) (hinf : 2 * B * nf < inf) (o : Options)
    (hes : o.earlyStopping = true) :
    ∃ T s r, T ≤ o.maxIter ∧
      iterate (lloydStep inf edist xs) (·.centroids) sameCentroids o o.maxIter
        (lloydInit inf edist xs cs) cs [] 0 = some (s, r) ∧ s.centroids = r ∧
      runN (lloydStep inf edist xs) T (lloydInit inf edist xs cs) = some s ∧
      (T < o.maxIter → LocalOptimum xs r (nearestIndices inf edist xs r)) := by
  obtain ⟨traj, hz, htraj, hstep, hinit, hnext, halt⟩ := lloyd_traj inf B xs cs hne hx hc hinf
  obtain ⟨T, hT, e, hset, _⟩ := C44_early_stopping (lloydStep inf edist xs) (·.centroids) sameCentroids []
    o hes traj hstep cs
  have hr : (if T = 0 then cs else (traj T).centroids) = (traj T).centroids := by
    split
    · rename_i h
      rw [h, hz]
      rfl
    · rfl
  rw [hz, hr] at e
  refine ⟨T, traj T, (traj T).centroids, hT, e, rfl, htraj T, ?_⟩
  intro hlt
  obtain ⟨hp, hrep⟩ := hset hlt
  have h1 := hrep 0 (by omega)
  rw [Repeats, sameCentroids_iff h0] at h1
  obtain ⟨u, rfl⟩ : ∃ u, T = u + 1 := ⟨T - 1, by omega⟩
  simp only [Nat.add_sub_cancel, Nat.sub_zero] at h1
  by_cases hu : u = 0
  · subst hu
    rw [if_pos rfl] at h1
    have := halt.lenC 1
    rw [h1] at this
    exact absurd (List.length_eq_zero_iff.1 this.symm) hne
  · rw [if_neg hu] at h1
    have hopt := optimum_of_repeat halt u h1
    rw [h1]
    have ha : (traj u).assigned = nearestIndices inf edist xs (traj u).centroids := by
      conv_lhs => rw [hinit u]
      simp only [lloydInit]
    rw [← ha]
    exact hopt

/-- **C88**, `fit` with Lloyd steps and tolerance 0: with `max_iter` at least `k ^ n` it returns a
local optimum, with or without early stopping and for every patience. -/
theorem C88_fit (h0 : nf ≠ 0) (inf B : ℝ) (xs : List (Fin nf → ℝ)) (hx : ∀ x ∈ xs, InBox B x)
    (hinf : 2 * B * nf < inf) (o : Options) (k : Nat) (hk : k ≠ 0) (stored : List (Fin nf → ℝ))
    (drawn : Nat → List (Fin nf → ℝ)) (hd : ∀ i, (drawn i).length = k ∧ ∀ c ∈ drawn i, InBox B c)
    (hs : stored = [] ∨ stored.length = k ∧ ∀ c ∈ stored, InBox B c) (hn : stored = [] → o.nInit ≠ 0)
    (hiter : k ^ xs.length ≤ o.maxIter) :
    ∃ r, fit (fun c => some (lloydInit inf edist xs c)) (lloydStep inf edist xs) (·.centroids) (·.loss)
        sameCentroids List.isEmpty [] o stored drawn = some r ∧ r.length = k ∧
      LocalOptimum xs r (nearestIndices inf edist xs r) := by
  have hcand : ∀ c ∈ candidates List.isEmpty o stored drawn, c.length = k ∧ ∀ v ∈ c, InBox B v := by
    intro c hc
    rw [candidates] at hc
    split at hc
    · obtain ⟨i, _, rfl⟩ := List.mem_map.1 hc
      exact hd i
    · rename_i h
      rw [List.mem_singleton] at hc
      subst hc
      rcases hs with h' | h'
      · exact absurd (by simp [h']) h
      · exact h'
  have hrun : ∀ c ∈ candidates List.isEmpty o stored drawn,
      ∃ R : LState (Fin nf → ℝ) ℝ × List (Fin nf → ℝ),
      iterate (lloydStep inf edist xs) (·.centroids) sameCentroids o o.maxIter
        (lloydInit inf edist xs c) c [] 0 = some R ∧ R.2.length = k ∧
      LocalOptimum xs R.2 (nearestIndices inf edist xs R.2) := by
    intro c hc
    obtain ⟨hlen, hbox⟩ := hcand c hc
    have hne : c ≠ [] := by
      intro h
      rw [h] at hlen
      exact hk hlen.symm
    obtain ⟨traj, hz, htraj, hstep, hinit, hnext, halt⟩ := lloyd_traj inf B xs c hne hx hbox hinf
    obtain ⟨s, _, hall, hopt⟩ := C88_lloyd inf B xs c hne hx hbox hinf
    have hend : ∀ T s', k ^ xs.length ≤ T →
        runN (lloydStep inf edist xs) T (lloydInit inf edist xs c) = some s' →
        s'.centroids.length = k ∧
          LocalOptimum xs s'.centroids (nearestIndices inf edist xs s'.centroids) := by
      intro T s' hT e'
      have e2 := hall T (by rw [hlen]; exact hT)
      have e1 := htraj T
      rw [e'] at e2 e1
      obtain rfl := Option.some.inj e2
      have e3 := Option.some.inj e1
      have hl := halt.lenC T
      rw [← e3, hlen] at hl
      refine ⟨hl, ?_⟩
      have ha : s'.assigned = nearestIndices inf edist xs s'.centroids := by
        rw [e3]
        conv_lhs => rw [hinit T]
        simp only [lloydInit]
      rw [← ha]
      exact hopt
    cases hes : o.earlyStopping with
    | true =>
      obtain ⟨T, s', r, hT, e, hr, hrunT, hearly⟩ := C88_stopped h0 inf B xs c hne hx hbox hinf o hes
      refine ⟨(s', r), e, ?_⟩
      subst hr
      rcases Nat.lt_or_ge T o.maxIter with h | h
      · refine ⟨?_, hearly h⟩
        have e1 := htraj T
        rw [hrunT] at e1
        have hl := halt.lenC T
        rw [← Option.some.inj e1, hlen] at hl
        exact hl
      · exact hend T s' (by omega) hrunT
    | false =>
      have e := C44_all_iterations (lloydStep inf edist xs) (·.centroids) sameCentroids [] o hes traj
        hstep c
      have hpos : o.maxIter ≠ 0 := by
        have := Nat.pow_pos (n := xs.length) (Nat.pos_of_ne_zero hk)
        omega
      rw [hz, if_neg hpos] at e
      exact ⟨_, e, hend o.maxIter _ hiter (htraj _)⟩
  classical
  let R : List (Fin nf → ℝ) → LState (Fin nf → ℝ) ℝ × List (Fin nf → ℝ) := fun c =>
    (iterate (lloydStep inf edist xs) (·.centroids) sameCentroids o o.maxIter
      (lloydInit inf edist xs c) c [] 0).getD (lloydInit inf edist xs c, c)
  have hR : ∀ c ∈ candidates List.isEmpty o stored drawn,
      iterate (lloydStep inf edist xs) (·.centroids) sameCentroids o o.maxIter
        (lloydInit inf edist xs c) c [] 0 = some (R c) ∧ (R c).2.length = k ∧
      LocalOptimum xs (R c).2 (nearestIndices inf edist xs (R c).2) := by
    intro c hc
    obtain ⟨r, e, h⟩ := hrun c hc
    simp only [R, e, Option.getD_some]
    exact ⟨trivial, h⟩
  have hne : candidates List.isEmpty o stored drawn ≠ [] := by
    rw [candidates]
    split
    · rename_i h
      have := hn (by simpa using h)
      simpa using this
    · simp
  obtain ⟨i, c, hc, e, _⟩ := C44_best (fun c => some (lloydInit inf edist xs c)) (lloydStep inf edist xs)
    (·.centroids) (·.loss) sameCentroids List.isEmpty [] o stored drawn R
    (fun c hc => ⟨_, rfl, (hR c hc).1⟩) hne
  have hmem := List.mem_of_getElem? hc
  exact ⟨_, e, (hR c hmem).2.1, (hR c hmem).2.2⟩

/-! ### Hamerly -/

/-- **C88**, Hamerly: from initial centroids without tied nearest centroids the centroids stop moving
after finitely many steps, and they are then a local optimum together with the assignment that the
buffers hold.  Missing: initial ties, as in C43. -/
theorem C88_hamerly_partial (inf vmax lowest eps : ℝ) (heps : 0 ≤ eps) (hlow : lowest ≤ 0)
    (xs cs : List (Fin nf → ℝ)) (hne : cs ≠ [])
    (hinf : ∀ x ∈ xs, ∀ c ∈ cs, edist x c < inf) (hmax : ∀ x ∈ xs, ∀ c ∈ cs, edist x c < vmax)
    (hties : NoTies (Sorting.eqEps eps) edist xs cs) :
    ∃ s0 N, ∃ C : List (Fin nf → ℝ), hamerlyInit inf vmax (Sorting.eqEps eps) edist xs cs = some s0 ∧
      C.length = cs.length ∧
      ∀ n, N ≤ n → ∃ s, runN (hamerlyStep inf lowest edist xs) n s0 = some s ∧ s.centroids = C ∧
        LocalOptimum xs C (s.cached.map (·.assigned)) := by
  have run := C43_hamerly_partial inf vmax lowest eps heps hlow edist edist_isDist xs cs hne hinf hmax
    hties
  obtain ⟨s0, e0, _, h0⟩ := init_spec inf vmax (Sorting.eqEps eps)
    (by intro a; simp [Sorting.eqEps, heps]) edist xs cs hne hinf hmax hties
  let traj : Nat → HState (Fin nf → ℝ) ℝ := fun t =>
    (runN (hamerlyStep inf lowest edist xs) t s0).getD s0
  have htraj : ∀ t, runN (hamerlyStep inf lowest edist xs) t s0 = some (traj t) := by
    intro t
    obtain ⟨t0, s, _, f0, e, _⟩ := run t
    rw [e0] at f0
    obtain rfl := Option.some.inj f0
    simp only [traj, e, Option.getD_some]
  have hspec : ∀ t, (traj (t + 1)).cached.length = xs.length ∧
      (traj (t + 1)).centroids.length = cs.length ∧
      (∀ p ∈ xs.zip ((traj (t + 1)).cached.map (·.assigned)), Nearest edist (traj t).centroids p.1 p.2) ∧
      (∀ (j : Nat) c, (traj t).centroids[j]? = some c → (traj (t + 1)).centroids[j]? =
        some (if members (xs.zip ((traj (t + 1)).cached.map (·.assigned))) j = [] then c
              else mean (K := ℝ) (members (xs.zip ((traj (t + 1)).cached.map (·.assigned))) j))) := by
    intro t
    obtain ⟨t0, s, s', f0, e, e', h1, h2, h3, h4, _⟩ := run t
    rw [e0] at f0
    obtain rfl := Option.some.inj f0
    have es := htraj t
    rw [e] at es
    obtain rfl := Option.some.inj es
    have es' := htraj (t + 1)
    simp only [runN, htraj t, Option.bind_some, e'] at es'
    obtain rfl := Option.some.inj es'
    exact ⟨h1, h2, h3, h4⟩
  have hlenC : ∀ t, (traj t).centroids.length = cs.length := by
    intro t
    cases t with
    | zero => simp [traj, runN, h0]
    | succ t => exact (hspec t).2.1
  have halt : Alternates xs cs.length (fun t => (traj t).centroids)
      (fun t => (traj (t + 1)).cached.map (·.assigned)) := by
    refine ⟨hlenC, fun t => by simp [(hspec t).1], fun t => (hspec t).2.2.1, ?_⟩
    intro t j hj hm
    have hj' : j < (traj t).centroids.length := by rw [hlenC]; exact hj
    rw [(hspec t).2.2.2 j _ (List.getElem?_eq_getElem hj'), if_neg hm]
  obtain ⟨N, hN⟩ := halt.eventually_keep (by
    intro t j hj hm
    have hj' : j < (traj t).centroids.length := by rw [hlenC]; exact hj
    rw [(hspec t).2.2.2 j _ (List.getElem?_eq_getElem hj'), if_pos hm, List.getElem?_eq_getElem hj'])
  refine ⟨s0, N + 1, (traj N).centroids, e0, hlenC N, ?_⟩
  intro n hn
  obtain ⟨m, rfl⟩ : ∃ m, n = m + 1 := ⟨n - 1, by omega⟩
  refine ⟨traj (m + 1), htraj _, hN (m + 1) (by omega), ?_⟩
  have hm : (traj m).centroids = (traj N).centroids := hN m (by omega)
  have := optimum_of_repeat halt m ((hN (m + 1) (by omega)).trans hm.symm)
  rw [hm] at this
  exact this

/-- The no-ties hypothesis is met by the samples beside `C43_hamerly_partial`; that run reaches its fixed
point 1/2, 7 in two steps. -/
example : ((hamerlyInit (1000 : ℚ) 1000 (Sorting.eqEps 0) (fun a b => |a - b|) [0, 1, 5, 6, 10] [0, 4]).bind
      (runN (hamerlyStep 1000 (-1000) (fun a b => |a - b|) [0, 1, 5, 6, 10]) 6)).map (·.centroids) =
      some [1 / 2, 7] := by
  decide +kernel

deriving instance DecidableEq for Cached
deriving instance DecidableEq for HState

/-- With an initial tie the iteration can stop for good at a point that is no local optimum: samples
0, -7, 1 and centroids -1, 1 end with the centroids -7/2, 1 and sample 0 in the cluster of -7/2. -/
theorem C88_ties_counterexample :
    ∃ s : HState ℚ ℚ, ((hamerlyInit (1000 : ℚ) 1000 (Sorting.eqEps 0) (fun a b => |a - b|) [0, -7, 1]
        [-1, 1]).bind (runN (hamerlyStep 1000 (-1000) (fun a b => |a - b|) [0, -7, 1]) 2)) = some s ∧
      hamerlyStep 1000 (-1000) (fun a b => |a - b|) [0, -7, 1] s = some s ∧
      (s.cached.map (·.assigned))[0]? = some 0 ∧
      ¬ Nearest (fun a b : ℚ => |a - b|) s.centroids 0 0 := by
  refine ⟨⟨[-7 / 2, 1], [⟨0, 7 / 2, 1000⟩, ⟨0, 7 / 2, 8⟩, ⟨1, 0, -1 / 2⟩], [9 / 2, 9 / 2], [2, 1],
    [-7, 1], 7⟩, by decide +kernel, by decide +kernel, rfl, ?_⟩
  rintro ⟨c, hc, h⟩
  simp at hc
  subst hc
  have := h 1 (by simp)
  revert this
  decide +kernel

end Verif.KMeans
