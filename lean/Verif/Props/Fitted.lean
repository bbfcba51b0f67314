import Verif.Model.Fitted
import Verif.Props.KMeansConvergence
import Verif.Props.KMedoidsFit

/-
Property C112: sequences of calls on one `KMeans` or `KMedoids` object.
-/

namespace Verif.Fitted

open Verif.KMeans (LState lloydInit lloydStep edist InBox objective Nearest FirstNearest members mean runN lloydNext
  lloyd_traj flat containersEqual candidates)

set_option linter.unusedSectionVars false

/-! ### the initialiser is used by the first fit only -/

section

variable {V K : Type} [LinearOrder K]

/-- Two calls that differ at most in the initialiser and in `n_init`. -/
inductive SameCall : KMeansCall V K → KMeansCall V K → Prop where
  | setOptions (o : KMeans.Options) (m : Nat) (tol : K) :
      SameCall (.setOptions o tol) (.setOptions { o with nInit := m } tol)
  | fit (xs : List V) (d d' : Nat → Nat → List V) : SameCall (.fit xs d) (.fit xs d')
  | predict (xs : List V) : SameCall (.predict xs) (.predict xs)
  | forward (xs : List V) : SameCall (.forward xs) (.forward xs)

/-- Two objects that differ at most in the number of centroids and in `n_init`. -/
def SameObject (q q' : KMeansObject V K) : Prop :=
  q'.centroids = q.centroids ∧ q'.tolerance = q.tolerance ∧ ∃ m, q'.options = { q.options with nInit := m }

theorem iterate_nInit {S C : Type} (step : S → Option S) (cent : S → C) (same : C → C → Bool) (o : KMeans.Options)
    (m : Nat) : ∀ (iter : Nat) (s : S) (cand prev : C) (pat : Nat),
      KMeans.iterate step cent same { o with nInit := m } iter s cand prev pat =
        KMeans.iterate step cent same o iter s cand prev pat
  | 0, _, _, _, _ => rfl
  | iter + 1, s, cand, prev, pat => by
    simp only [KMeans.iterate]
    cases step s with
    | none => rfl
    | some s' => simp only [Option.bind_eq_bind, Option.bind_some, iterate_nInit step cent same o m iter]

theorem iterate_keeps {S C : Type} (P : S → Prop) (Q : C → Prop) (step : S → Option S) (cent : S → C)
    (hs : ∀ s s', P s → step s = some s' → P s') (hc : ∀ s, P s → Q (cent s)) (same : C → C → Bool)
    (o : KMeans.Options) : ∀ (iter : Nat) (s : S) (cand prev : C) (pat : Nat) (r : S × C), P s → Q cand →
      KMeans.iterate step cent same o iter s cand prev pat = some r → Q r.2
  | 0, _, _, _, _, r, _, hq, h => by
    simp only [KMeans.iterate, Option.some.injEq] at h
    subst h
    exact hq
  | iter + 1, s, cand, prev, pat, r, hp, hq, h => by
    simp only [KMeans.iterate] at h
    cases e : step s with
    | none => simp [e] at h
    | some s' =>
      have hp' := hs s s' hp e
      simp only [e, Option.bind_eq_bind, Option.bind_some] at h
      split at h
      · split at h
        · simp only [Option.some.injEq] at h
          subst h
          exact hc s' hp'
        · exact iterate_keeps P Q step cent hs hc same o iter s' _ _ _ r hp' (hc s' hp') h
      · exact iterate_keeps P Q step cent hs hc same o iter s' _ _ _ r hp' (hc s' hp') h

/-- An algorithm that never loses all of its centroids. -/
def KeepsCentroids (alg : Algorithm V K) : Prop :=
  ∃ P : alg.S → Prop, (∀ xs c s, c ≠ [] → alg.init xs c = some s → P s) ∧
    (∀ xs s s', P s → alg.step xs s = some s' → P s') ∧ ∀ s, P s → alg.cent s ≠ []

theorem map_cons {γ : Type} {a b : Option (KMeansObject V K × List γ)}
    (h : (a.map fun r => (r.1.centroids, r.2)) = b.map fun r => (r.1.centroids, r.2)) (u : γ) :
    ((a.bind fun r => some (r.1, u :: r.2)).map fun r => (r.1.centroids, r.2)) =
      (b.bind fun r => some (r.1, u :: r.2)).map fun r => (r.1.centroids, r.2) := by
  revert h
  cases a <;> cases b <;> simp

/-- **C112**: once centroids are stored, neither the initialisers given to later calls of `fit`, nor
`n_init`, nor the number of centroids given to the constructor has any effect: two sequences of calls
that differ in nothing else give the same answers and store the same centroids. -/
theorem C112_initialiser_unused (alg : Algorithm V K) (halg : KeepsCentroids alg)
    (same : K → List V → List V → Bool) (inf : K) (dist : V → V → K) :
    ∀ (cs cs' : List (KMeansCall V K)) (q q' : KMeansObject V K), List.Forall₂ SameCall cs cs' →
      q.centroids ≠ [] → SameObject q q' →
      ((kmeansRun alg same inf dist q cs).map fun r => (r.1.centroids, r.2)) =
        ((kmeansRun alg same inf dist q' cs').map fun r => (r.1.centroids, r.2)) := by
  intro cs cs' q q' h
  induction h generalizing q q' with
  | nil =>
    intro _ hq
    simp only [kmeansRun, Option.map_some, hq.1]
  | @cons c c' cs cs' hc _ ih =>
    intro hne hq
    obtain ⟨h1, h2, m, h3⟩ := hq
    simp only [kmeansRun]
    cases hc with
    | setOptions o m' tol =>
      simp only [kmeansCall, Option.bind_eq_bind, Option.bind_some]
      have := ih { q with options := o, tolerance := tol }
        { q' with options := { o with nInit := m' }, tolerance := tol } hne ⟨h1, rfl, m', rfl⟩
      revert this
      cases kmeansRun alg same inf dist { q with options := o, tolerance := tol } cs <;>
        cases kmeansRun alg same inf dist
          { q' with options := { o with nInit := m' }, tolerance := tol } cs' <;> simp
    | predict xs =>
      simp only [kmeansCall, Option.bind_eq_bind, Option.bind_some, h1]
      have := ih q q' hne ⟨h1, h2, m, h3⟩
      revert this
      cases kmeansRun alg same inf dist q cs <;> cases kmeansRun alg same inf dist q' cs' <;> simp
    | forward xs =>
      simp only [kmeansCall, Option.bind_eq_bind, Option.bind_some, h1]
      have := ih q q' hne ⟨h1, h2, m, h3⟩
      revert this
      cases kmeansRun alg same inf dist q cs <;> cases kmeansRun alg same inf dist q' cs' <;> simp
    | fit xs d d' =>
      have he : q.centroids.isEmpty = false := by simpa using hne
      simp only [kmeansCall, h1, h2, h3]
      rw [KMeans.C44_warm_start (alg.init xs) (alg.step xs) alg.cent alg.loss (same q.tolerance) List.isEmpty []
        q.options q.centroids (d q.n) he,
        KMeans.C44_warm_start (alg.init xs) (alg.step xs) alg.cent alg.loss (same q.tolerance) List.isEmpty []
        { q.options with nInit := m } q.centroids (d' q'.n) he]
      simp only [iterate_nInit]
      cases e1 : alg.init xs q.centroids with
      | none => rfl
      | some s =>
        simp only [Option.bind_some]
        cases e2 : KMeans.iterate (alg.step xs) alg.cent (same q.tolerance) q.options q.options.maxIter s
          q.centroids [] 0 with
        | none => rfl
        | some r =>
          simp only [Option.map_some, Option.bind_eq_bind, Option.bind_some]
          obtain ⟨P, p1, p2, p3⟩ := halg
          have hr : r.2 ≠ [] := iterate_keeps P (· ≠ []) (alg.step xs) alg.cent (p2 xs) p3 _ _ _ _ _ _ _ _
            (p1 xs _ s hne e1) hne e2
          exact map_cons (ih { q with centroids := r.2 }
            { n := q'.n, centroids := r.2, options := { q.options with nInit := m }, tolerance := q.tolerance } hr
            ⟨rfl, rfl, m, rfl⟩) _

end

theorem sizesLoop_length : ∀ (a s s' : List Nat), KMeans.sizesLoop s a = some s' → s'.length = s.length
  | [], s, s', h => by simp only [KMeans.sizesLoop, Option.some.injEq] at h; rw [h]
  | j :: a, s, s', h => by
    simp only [KMeans.sizesLoop] at h
    cases e : s[j]? with
    | none => simp [e] at h
    | some n =>
      simp only [e, Option.bind_eq_bind, Option.bind_some] at h
      rw [sizesLoop_length a _ s' h, List.length_set]

theorem sumsLoop_length {V : Type} [Add V] : ∀ (a : List (V × Nat)) (s s' : List V),
    KMeans.sumsLoop s a = some s' → s'.length = s.length
  | [], s, s', h => by simp only [KMeans.sumsLoop, Option.some.injEq] at h; rw [h]
  | (x, j) :: a, s, s', h => by
    simp only [KMeans.sumsLoop] at h
    cases e : s[j]? with
    | none => simp [e] at h
    | some n =>
      simp only [e, Option.bind_eq_bind, Option.bind_some] at h
      rw [sumsLoop_length a _ s' h, List.length_set]

theorem lloydStep_keeps {V K : Type} [AddCommGroup V] [Field K] [LinearOrder K] [Module K V] (inf : K)
    (dist : V → V → K) (xs : List V) (s s' : LState V K) (hs : s.centroids ≠ [])
    (h : lloydStep inf dist xs s = some s') : s'.centroids ≠ [] := by
  simp only [lloydStep] at h
  cases e1 : KMeans.clusterSizes s.centroids.length s.assigned with
  | none => simp [e1] at h
  | some sizes =>
    cases e2 : KMeans.clusterSums s.centroids.length xs s.assigned with
    | none => simp [e1, e2] at h
    | some sums =>
      simp only [e1, e2, Option.bind_eq_bind, Option.bind_some, Option.some.injEq] at h
      have l1 := sizesLoop_length _ _ _ e1
      have l2 := sumsLoop_length _ _ _ e2
      rw [← h]
      intro h0
      have := congrArg List.length h0
      simp only [lloydInit, List.length_zipWith, l1, l2, List.length_replicate, List.length_nil, min_self] at this
      exact hs (List.length_eq_zero_iff.1 this)

/-- Lloyd keeps its centroids. -/
theorem lloyd_keeps {V K : Type} [AddCommGroup V] [Field K] [LinearOrder K] [Module K V] (inf : K)
    (dist : V → V → K) : KeepsCentroids (lloyd inf dist) :=
  ⟨fun s : LState V K => s.centroids ≠ [], fun _ c s hc h => by
    have h' : lloydInit inf dist _ c = s := Option.some.inj h
    subst h'
    exact hc, fun xs s s' hs h => lloydStep_keeps inf dist xs s s' hs h, fun _ h => h⟩

/-- Hamerly keeps its centroids. -/
theorem hamerly_keeps {V K : Type} [AddCommGroup V] [Field K] [LinearOrder K] [Module K V] (inf vmax lowest : K)
    (eq : K → K → Bool) (dist : V → V → K) : KeepsCentroids (hamerly inf vmax lowest eq dist) := by
  refine ⟨fun s : KMeans.HState V K => s.centroids ≠ [], fun xs c s hc h => ?_, fun xs s s' hs h => ?_, fun _ h => h⟩
  · have h' : KMeans.hamerlyInit inf vmax eq dist xs c = some s := h
    simp only [KMeans.hamerlyInit] at h'
    cases e1 : KMeans.clusterSizes c.length (KMeans.nearestIndices inf dist xs c) with
    | none => simp [e1] at h'
    | some sizes =>
      cases e2 : KMeans.clusterSums c.length xs (KMeans.nearestIndices inf dist xs c) with
      | none => simp [e1, e2] at h'
      | some sums =>
        simp only [e1, e2, Option.bind_eq_bind, Option.bind_some] at h'
        have h2 := Option.some.inj h'
        rw [← h2]
        exact hc
  · have h' : KMeans.hamerlyStep inf lowest dist xs s = some s' := h
    simp only [KMeans.hamerlyStep] at h'
    cases e1 : KMeans.swapLoop inf dist s.centroids s.near (xs.zip s.cached) s.sizes s.sums s.loss with
    | none => simp [e1] at h'
    | some r =>
      simp only [e1, Option.bind_eq_bind, Option.bind_some] at h'
      intro h0
      generalize hcs : KMeans.updateCentroids (K := K) s.centroids r.2.1 r.2.2.1 = cs at h'
      cases cs with
      | nil =>
        simp [KMeans.updateBounds, Stats.maxPair, Stats.best] at h'
      | cons c cs =>
        cases e2 : KMeans.updateBounds lowest (List.zipWith dist s.centroids (c :: cs)) r.1 with
        | none => simp [e2] at h'
        | some b =>
          simp only [e2, Option.bind_some] at h'
          have h2 := Option.some.inj h'
          rw [← h2] at h0
          exact List.cons_ne_nil _ _ h0

/-! ### Lloyd on real data -/

section Lloyd

variable {nf : Nat}

/-- `are_containers_equal` on the centroids with a tolerance. -/
noncomputable def within (tol : ℝ) (c c' : List (Fin nf → ℝ)) : Bool := containersEqual tol (flat c) (flat c')

/-- The samples that a call is given. -/
def KMeansCall.rows {V K : Type} : KMeansCall V K → List V
  | .setOptions _ _ => []
  | .fit xs _ => xs
  | .predict xs => xs
  | .forward xs => xs

/-- The samples that a call of `fit` is given. -/
def KMeansCall.FitsOn {V K : Type} (xs : List V) : KMeansCall V K → Prop
  | .fit ys _ => ys = xs
  | _ => True

theorem lloydNext_box (B : ℝ) (xs : List (Fin nf → ℝ)) (k : Nat) (a : List Nat) (hx : ∀ x ∈ xs, InBox B x)
    (hB : ∀ _ : Fin nf, 0 ≤ B) : ∀ c ∈ lloydNext xs k a, InBox B c := by
  intro c hc
  simp only [lloydNext, List.mem_map] at hc
  obtain ⟨j, _, rfl⟩ := hc
  split
  · intro f
    simpa using hB f
  · rename_i h
    refine KMeans.mean_box B _ h fun v hv => hx v ?_
    exact (List.of_mem_zip (KMeans.members_mem hv)).1

/-- `fit` on an object with stored centroids. -/
theorem refit (inf B : ℝ) (xs cs : List (Fin nf → ℝ)) (hne : cs ≠ []) (hx : ∀ x ∈ xs, InBox B x)
    (hc : ∀ c ∈ cs, InBox B c) (hinf : 2 * B * nf < inf) (same : List (Fin nf → ℝ) → List (Fin nf → ℝ) → Bool)
    (o : KMeans.Options) (drawn : Nat → List (Fin nf → ℝ)) :
    ∃ (traj : Nat → LState (Fin nf → ℝ) ℝ) (T : Nat), traj 0 = lloydInit inf edist xs cs ∧
      (∀ t, runN (lloydStep inf edist xs) t (lloydInit inf edist xs cs) = some (traj t)) ∧
      (∀ t, lloydStep inf edist xs (traj t) = some (traj (t + 1))) ∧
      (∀ t, traj t = lloydInit inf edist xs (traj t).centroids) ∧
      (∀ t, (traj t).centroids.length = cs.length ∧ (∀ c ∈ (traj t).centroids, InBox B c) ∧
        objective xs (traj t).centroids ≤ objective xs cs) ∧
      KMeans.fit (fun c => some (lloydInit inf edist xs c)) (lloydStep inf edist xs) (·.centroids) (·.loss) same
        List.isEmpty [] o cs drawn = some (traj T).centroids ∧
      (o.earlyStopping = true → T < o.maxIter → KMeans.Settled (·.centroids) same [] traj o.patience T) ∧
      (o.earlyStopping = false → T = o.maxIter) ∧ T ≤ o.maxIter := by
  obtain ⟨traj, h0, hrun, hstep, hinit, hnext, halt⟩ := lloyd_traj inf B xs cs hne hx hc hinf
  have hce : cs.isEmpty = false := by simpa using hne
  have h00 : (traj 0).centroids = cs := by rw [h0]; rfl
  have hB : ∀ _ : Fin nf, 0 ≤ B := by
    intro f
    obtain ⟨c, hcm⟩ := List.exists_mem_of_ne_nil cs hne
    exact (abs_nonneg _).trans (hc c hcm f)
  have hall : ∀ t, (traj t).centroids.length = cs.length ∧ (∀ c ∈ (traj t).centroids, InBox B c) ∧
      objective xs (traj t).centroids ≤ objective xs cs := by
    intro t
    refine ⟨halt.lenC t, ?_, ?_⟩
    · cases t with
      | zero => rw [h00]; exact hc
      | succ t => rw [hnext t]; exact lloydNext_box B xs _ _ hx hB
    · obtain ⟨s, _, e, _, _, _, _, _, h⟩ := KMeans.C42_lloyd_run inf B xs cs hne hx hc hinf t
      rw [hrun t] at e
      rw [Option.some.inj e]
      exact h
  have hw := KMeans.C44_warm_start (fun c => some (lloydInit inf edist xs c)) (lloydStep inf edist xs)
    (·.centroids) (·.loss) same List.isEmpty [] o cs drawn hce
  simp only [Option.bind_some, ← h0] at hw
  have hif : ∀ T, (if T = 0 then cs else (traj T).centroids) = (traj T).centroids := by
    intro T
    split
    · rename_i h
      rw [h, h00]
    · rfl
  cases hes : o.earlyStopping with
  | true =>
    obtain ⟨T, hT, e, hset, _⟩ := KMeans.C44_early_stopping (lloydStep inf edist xs) (·.centroids) same [] o hes
      traj hstep cs
    rw [hif T] at e
    refine ⟨traj, T, h0, hrun, hstep, hinit, hall, ?_, fun _ => hset, by simp, hT⟩
    rw [hw, e]; rfl
  | false =>
    have e := KMeans.C44_all_iterations (lloydStep inf edist xs) (·.centroids) same [] o hes traj hstep cs
    rw [hif] at e
    refine ⟨traj, o.maxIter, h0, hrun, hstep, hinit, hall, ?_, by simp, fun _ => rfl, le_rfl⟩
    rw [hw, e]; rfl

/-- **C112**: every sequence of calls on a `KMeans` object with stored centroids is defined, whatever the
data and the options of the calls; it keeps the number of centroids; and while all calls of `fit` are
given the same samples, the k-means objective of the stored centroids never increases. -/
theorem C112_lloyd (inf B : ℝ) (hinf : 2 * B * nf < inf) :
    ∀ (calls : List (KMeansCall (Fin nf → ℝ) ℝ)) (q : KMeansObject (Fin nf → ℝ) ℝ), q.centroids ≠ [] →
      (∀ c ∈ q.centroids, InBox B c) → (∀ c ∈ calls, ∀ x ∈ c.rows, InBox B x) →
      ∃ q' as, kmeansRun (lloyd inf edist) within inf edist q calls = some (q', as) ∧ as.length = calls.length ∧
        q'.centroids.length = q.centroids.length ∧ (∀ c ∈ q'.centroids, InBox B c) ∧
        ∀ xs, (∀ c ∈ calls, c.FitsOn xs) → objective xs q'.centroids ≤ objective xs q.centroids := by
  intro calls
  induction calls with
  | nil =>
    intro q _ hq _
    exact ⟨q, [], rfl, rfl, rfl, hq, fun _ _ => le_rfl⟩
  | cons c cs ih =>
    intro q hne hq hcalls
    have hcs : ∀ c ∈ cs, ∀ x ∈ c.rows, InBox B x := fun d hd => hcalls d (List.mem_cons_of_mem _ hd)
    simp only [kmeansRun]
    cases c with
    | setOptions o tol =>
      obtain ⟨q', as, e, h1, h2, h3, h4⟩ := ih { q with options := o, tolerance := tol } hne hq hcs
      refine ⟨q', .done :: as, ?_, by simp [h1], h2, h3, fun xs hxs => h4 xs fun d hd =>
        hxs d (List.mem_cons_of_mem _ hd)⟩
      simp only [kmeansCall, Option.bind_eq_bind, Option.bind_some, e]
    | predict ys =>
      obtain ⟨q', as, e, h1, h2, h3, h4⟩ := ih q hne hq hcs
      refine ⟨q', .labels (KMeans.nearestIndices inf edist ys q.centroids) :: as, ?_, by simp [h1], h2, h3, fun xs hxs => h4 xs fun d hd =>
        hxs d (List.mem_cons_of_mem _ hd)⟩
      simp only [kmeansCall, Option.bind_eq_bind, Option.bind_some, e]
    | forward ys =>
      obtain ⟨q', as, e, h1, h2, h3, h4⟩ := ih q hne hq hcs
      refine ⟨q', .distances (KMeans.nearestDistances inf edist ys q.centroids) :: as, ?_, by simp [h1], h2, h3, fun xs hxs => h4 xs fun d hd =>
        hxs d (List.mem_cons_of_mem _ hd)⟩
      simp only [kmeansCall, Option.bind_eq_bind, Option.bind_some, e]
    | fit ys drawn =>
      have hy : ∀ x ∈ ys, InBox B x := hcalls (.fit ys drawn) List.mem_cons_self
      obtain ⟨traj, T, _, _, _, _, hall, hf, _⟩ := refit inf B ys q.centroids hne hy hq hinf (within q.tolerance)
        q.options (drawn q.n)
      obtain ⟨a1, a2, a3⟩ := hall T
      have hne' : (traj T).centroids ≠ [] := by
        intro h
        rw [h] at a1
        exact hne (List.length_eq_zero_iff.1 a1.symm)
      obtain ⟨q', as, e, h1, h2, h3, h4⟩ := ih { q with centroids := (traj T).centroids } hne' a2 hcs
      refine ⟨q', .fitted (traj T).centroids :: as, ?_, by simp [h1], h2.trans a1, h3, ?_⟩
      · have hf' : KMeans.fit ((lloyd inf edist).init ys) ((lloyd inf edist).step ys) (lloyd inf edist).cent
            (lloyd inf edist).loss (within q.tolerance) List.isEmpty [] q.options q.centroids (drawn q.n) =
            some (traj T).centroids := hf
        simp only [kmeansCall, hf', Option.bind_eq_bind, Option.bind_some, e]
      · intro xs hxs
        have hyx : ys = xs := hxs (.fit ys drawn) List.mem_cons_self
        subst hyx
        exact (h4 ys fun d hd => hxs d (List.mem_cons_of_mem _ hd)).trans a3

/-- After any sequence of calls the labels of new samples are those of the first nearest stored centroid,
and asking for them changes nothing. -/
theorem C112_predict (inf : ℝ) (alg : Algorithm (Fin nf → ℝ) ℝ) (same) (q : KMeansObject (Fin nf → ℝ) ℝ)
    (ys : List (Fin nf → ℝ)) (hne : q.centroids ≠ []) (hinf : ∀ y ∈ ys, ∀ c ∈ q.centroids, KMeans.edist y c < inf) :
    ∃ l, kmeansCall alg same inf edist q (.predict ys) = some (q, .labels l) ∧ l.length = ys.length ∧
      ∀ (i : Nat) y, ys[i]? = some y → ∃ t, l[i]? = some t ∧ FirstNearest KMeans.edist q.centroids y t := by
  obtain ⟨h1, _, h2⟩ := KMeans.C41_predict_partial inf edist ys q.centroids hne hinf
  refine ⟨_, rfl, h1, fun i y hi => ?_⟩
  obtain ⟨t, _, a, b, _⟩ := h2 i y hi
  exact ⟨t, a, b⟩

/-- A run that starts at a fixed point stays there. -/
theorem refit_fixed (inf B : ℝ) (xs cs : List (Fin nf → ℝ)) (hne : cs ≠ []) (hx : ∀ x ∈ xs, InBox B x)
    (hc : ∀ c ∈ cs, InBox B c) (hinf : 2 * B * nf < inf)
    (hfix : lloydStep inf edist xs (lloydInit inf edist xs cs) = some (lloydInit inf edist xs cs))
    (same : List (Fin nf → ℝ) → List (Fin nf → ℝ) → Bool)
    (o : KMeans.Options) (drawn : Nat → List (Fin nf → ℝ)) :
    KMeans.fit (fun c => some (lloydInit inf edist xs c)) (lloydStep inf edist xs) (·.centroids) (·.loss) same
        List.isEmpty [] o cs drawn = some cs := by
  obtain ⟨traj, T, h0, hrun, _, _, _, hf, _⟩ := refit inf B xs cs hne hx hc hinf same o drawn
  have : ∀ t, traj t = lloydInit inf edist xs cs := by
    intro t
    have h := hrun t
    have h' : ∀ t, runN (lloydStep inf edist xs) t (lloydInit inf edist xs cs) = some (lloydInit inf edist xs cs) := by
      intro t
      induction t with
      | zero => rfl
      | succ t ih => simp only [runN, ih, Option.bind_some, hfix]
    rw [h' t] at h
    exact (Option.some.inj h).symm
  rw [hf, this T]
  rfl

/-- **C112**: after a `fit` with tolerance 0 and enough iterations, no later call of `fit` on the same
samples moves the centroids, whatever the options: fitting again is without effect. -/
theorem C112_fit_again (h0 : nf ≠ 0) (inf B : ℝ) (hinf : 2 * B * nf < inf) (xs : List (Fin nf → ℝ))
    (hx : ∀ x ∈ xs, InBox B x) (q : KMeansObject (Fin nf → ℝ) ℝ) (hne : q.centroids ≠ [])
    (hq : ∀ c ∈ q.centroids, InBox B c) (htol : q.tolerance = 0)
    (hiter : q.centroids.length ^ xs.length ≤ q.options.maxIter) (drawn : Nat → Nat → List (Fin nf → ℝ)) :
    ∃ q1, kmeansCall (lloyd inf edist) within inf edist q (.fit xs drawn) = some (q1, .fitted q1.centroids) ∧
      ∀ calls : List (KMeansCall (Fin nf → ℝ) ℝ), (∀ c ∈ calls, c.FitsOn xs) →
        ∃ q2 as, kmeansRun (lloyd inf edist) within inf edist q1 calls = some (q2, as) ∧
          q2.centroids = q1.centroids := by
  obtain ⟨traj, T, ht0, hrun, hstep, hinit, hall, hf, hearly, hlate, hT⟩ := refit inf B xs q.centroids hne hx hq
    hinf (within q.tolerance) q.options (drawn q.n)
  have hf' : KMeans.fit ((lloyd inf edist).init xs) ((lloyd inf edist).step xs) (lloyd inf edist).cent
      (lloyd inf edist).loss (within q.tolerance) List.isEmpty [] q.options q.centroids (drawn q.n) =
      some (traj T).centroids := hf
  have hfix : lloydStep inf edist xs (traj T) = some (traj T) := by
    by_cases hlt : T < q.options.maxIter
    · have hes : q.options.earlyStopping = true := by
        cases h : q.options.earlyStopping with
        | true => rfl
        | false => have := hlate h; omega
      obtain ⟨hp, hrep⟩ := hearly hes hlt
      have h1 := hrep 0 (by omega)
      obtain ⟨u, rfl⟩ : ∃ u, T = u + 1 := ⟨T - 1, by omega⟩
      simp only [Nat.add_sub_cancel, Nat.sub_zero, htol] at h1
      have h2 := (KMeans.sameCentroids_iff h0 _ _).1 h1
      simp only at h2
      split at h2
      · have := (hall (u + 1)).1
        rw [h2] at this
        exact absurd (List.length_eq_zero_iff.1 this.symm) hne
      · have h3 : traj (u + 1) = traj u := by
          rw [hinit (u + 1), hinit u, h2]
        conv_lhs => rw [h3]
        exact hstep u
    · obtain ⟨s, hs, hall', _⟩ := KMeans.C88_lloyd inf B xs q.centroids hne hx hq hinf
      have := hall' T (by omega)
      rw [hrun T] at this
      rw [Option.some.inj this]
      exact hs
  obtain ⟨b1, b2, _⟩ := hall T
  have hne' : (traj T).centroids ≠ [] := by
    intro h
    rw [h] at b1
    exact hne (List.length_eq_zero_iff.1 b1.symm)
  rw [hinit T] at hfix
  refine ⟨{ q with centroids := (traj T).centroids }, ?_, ?_⟩
  · simp only [kmeansCall, hf', Option.bind_eq_bind, Option.bind_some]
  · have key : ∀ (calls : List (KMeansCall (Fin nf → ℝ) ℝ)) (p : KMeansObject (Fin nf → ℝ) ℝ),
        p.centroids = (traj T).centroids → (∀ c ∈ calls, c.FitsOn xs) →
        ∃ q2 as, kmeansRun (lloyd inf edist) within inf edist p calls = some (q2, as) ∧
          q2.centroids = (traj T).centroids := by
      intro calls
      induction calls with
      | nil => intro p hp _; exact ⟨p, [], rfl, hp⟩
      | cons c cs ih =>
        intro p hp hcs
        have hcs' : ∀ c ∈ cs, c.FitsOn xs := fun d hd => hcs d (List.mem_cons_of_mem _ hd)
        simp only [kmeansRun]
        cases c with
        | setOptions o tol =>
          obtain ⟨q2, as, e, h⟩ := ih { p with options := o, tolerance := tol } hp hcs'
          exact ⟨q2, .done :: as, by simp only [kmeansCall, Option.bind_eq_bind, Option.bind_some, e], h⟩
        | predict ys =>
          obtain ⟨q2, as, e, h⟩ := ih p hp hcs'
          exact ⟨q2, .labels (KMeans.nearestIndices inf edist ys p.centroids) :: as, by simp only [kmeansCall, Option.bind_eq_bind, Option.bind_some, e], h⟩
        | forward ys =>
          obtain ⟨q2, as, e, h⟩ := ih p hp hcs'
          exact ⟨q2, .distances (KMeans.nearestDistances inf edist ys p.centroids) :: as, by simp only [kmeansCall, Option.bind_eq_bind, Option.bind_some, e], h⟩
        | fit ys dr =>
          have hyx : ys = xs := hcs (.fit ys dr) List.mem_cons_self
          subst hyx
          have hr := refit_fixed inf B ys (traj T).centroids hne' hx b2 hinf hfix (within p.tolerance) p.options
            (dr p.n)
          have hr' : KMeans.fit ((lloyd inf edist).init ys) ((lloyd inf edist).step ys) (lloyd inf edist).cent
              (lloyd inf edist).loss (within p.tolerance) List.isEmpty [] p.options p.centroids (dr p.n) =
              some (traj T).centroids := by rw [hp]; exact hr
          obtain ⟨q2, as, e, h⟩ := ih { p with centroids := (traj T).centroids } rfl hcs'
          exact ⟨q2, .fitted (traj T).centroids :: as,
            by simp only [kmeansCall, hr', Option.bind_eq_bind, Option.bind_some, e], h⟩
    intro calls hcalls
    exact key calls { q with centroids := (traj T).centroids } rfl hcalls

end Lloyd

/-! ### history -/

/-- What a fresh `KMeans` object with two centroids returns for a sequence of calls with Lloyd steps on
samples with one feature; the initialiser takes the first two samples. -/
def twoMeans (calls : List (KMeansCall ℚ ℚ)) : Option (List ℚ × List (Answer (List ℚ) ℚ)) :=
  (kmeansRun (lloyd (1000 : ℚ) fun a b => |a - b|) containersEqual 1000 (fun a b => |a - b|)
    { n := 2, centroids := [], options := {}, tolerance := 0 } calls).map fun r => (r.1.centroids, r.2)

/-- The first two samples. -/
def firstTwo (xs : List ℚ) : KMeansCall ℚ ℚ := .fit xs fun n _ => xs.take n

/-- **C112** is false of the result of `fit` as a function of the samples: an object that was fitted on
other samples before returns other centroids, here with an empty cluster at the origin. -/
theorem C112_history_counterexample :
    (twoMeans [firstTwo [101, 102, 111, 112]]).map (·.1) = some [203 / 2, 223 / 2] ∧
    (twoMeans [firstTwo [1, 2, 11, 12], firstTwo [101, 102, 111, 112]]).map (·.1) = some [0, 213 / 2] := by
  decide +kernel

/-- A sequence of calls as in `C112_lloyd`, after the first `fit`: two calls of `fit` around a change of options. -/
example : twoMeans [.setOptions { maxIter := 1 } 0, firstTwo [1, 2, 11, 12], .setOptions {} 0,
    firstTwo [1, 2, 11, 12], .predict [0, 20]] =
    some ([3 / 2, 23 / 2], [.done, .fitted [1, 25 / 3], .done, .fitted [3 / 2, 23 / 2], .labels [0, 1]]) := by
  decide +kernel

/-! ### KMedoids -/

section Medoids

variable {V K : Type} [LinearOrder K]

/-- The samples that a call of `fit` is given. -/
def KMedoidsCall.On {V : Type} (rows : List V) : KMedoidsCall V → Prop
  | .setOptions _ => True
  | .fit ys _ => ys = rows
  | .predict ys => ys = rows
  | .forward ys => ys = rows

/-- A distance function for the samples at hand. -/
def Distance [Zero K] (vmax : K) (dist : V → V → K) (rows : List V) : Prop :=
  (∀ x ∈ rows, ∀ y ∈ rows, 0 ≤ dist x y ∧ dist x y < vmax) ∧ ∀ x ∈ rows, dist x x = 0

theorem distances_some {vmax : K} {dist : V → V → K} {rows : List V} {i j : Nat} {x y : V} (hi : rows[i]? = some x)
    (hj : rows[j]? = some y) : distances vmax dist rows i j = dist x y := by
  simp only [distances, hi, hj]

theorem inside_of {rows : List V} {ms : List Nat} (h : ∀ m ∈ ms, m < rows.length) : inside rows ms = true := by
  simp only [inside, Bool.or_eq_true, List.all_eq_true, decide_eq_true_eq]
  exact Or.inr h

/-- **C112**: `KMedoids::predict` measures the distances to the samples of its argument at the stored
indices.  Where the object was fitted does not matter: the label of a sample is the position of the first
index whose sample in the argument is nearest. -/
theorem C112_medoids_predict [Ring K] (vmax : K) (eq : K → K → Bool) (dist : V → V → K) (q : KMedoidsObject)
    (ys : List V) (hne : q.medoids ≠ []) (hin : ∀ m ∈ q.medoids, m < ys.length)
    (hv : ∀ x ∈ ys, ∀ y ∈ ys, dist x y < vmax) :
    ∃ l, kmedoidsCall vmax eq dist q (.predict ys) = some (q, .labels l) ∧ l.length = ys.length ∧
      ∀ (o : Nat) y, ys[o]? = some y → ∃ (i m : Nat) (c : V), l[o]? = some i ∧ q.medoids[i]? = some m ∧
        ys[m]? = some c ∧ (∀ m' ∈ q.medoids, ∀ c', ys[m']? = some c' → dist c y ≤ dist c' y) ∧
        ∀ (j m' : Nat) c', j < i → q.medoids[j]? = some m' → ys[m']? = some c' → dist c y < dist c' y := by
  obtain ⟨l, e, hl, h⟩ := KMedoids.C45_predict vmax (distances vmax dist ys) ys.length q.medoids hne (by
    intro o ho m hm
    rw [distances_some (List.getElem?_eq_getElem (hin m hm)) (List.getElem?_eq_getElem ho)]
    exact hv _ (List.getElem_mem _) _ (List.getElem_mem _))
  refine ⟨l, ?_, hl, ?_⟩
  · simp only [kmedoidsCall, inside_of hin, e]
    rfl
  · intro o y ho
    have ho' := (List.getElem?_eq_some_iff.1 ho).1
    obtain ⟨i, m, h1, h2, h3, h4⟩ := h o ho'
    have hm := hin m (List.mem_of_getElem? h2)
    refine ⟨i, m, _, h1, h2, List.getElem?_eq_getElem hm, ?_, ?_⟩
    · intro m' hm' c' hc'
      have := h3 m' hm'
      rwa [distances_some (List.getElem?_eq_getElem hm) ho, distances_some hc' ho] at this
    · intro j m' c' hj hm' hc'
      have := h4 j m' hj hm'
      rwa [distances_some (List.getElem?_eq_getElem hm) ho, distances_some hc' ho] at this

/-- `predict`, `forward` and `fit` read outside of samples that are fewer than a stored index. -/
theorem C112_medoids_outside [Ring K] (vmax : K) (eq : K → K → Bool) (dist : V → V → K) (q : KMedoidsObject)
    (ys : List V) (hne : ys ≠ []) (m : Nat) (hm : m ∈ q.medoids) (hout : ys.length ≤ m) :
    kmedoidsCall vmax eq dist q (.predict ys) = none ∧ kmedoidsCall vmax eq dist q (.forward ys) = none ∧
      ∀ outcome, kmedoidsCall vmax eq dist q (.fit ys outcome) = none := by
  have h : inside ys q.medoids = false := by
    rw [Bool.eq_false_iff]
    intro h
    simp only [inside, Bool.or_eq_true, List.isEmpty_iff, hne, false_or, List.all_eq_true, decide_eq_true_eq] at h
    have := h m hm
    omega
  simp [kmedoidsCall, h]

variable [CommRing K] [IsStrictOrderedRing K]

/-- **C112**: every sequence of calls on the same samples is defined on an object with at least two stored
medoids; it keeps the number of medoids and never increases their total deviation, whatever the options
in between. -/
theorem C112_medoids (vmax : K) (eq : K → K → Bool) (dist : V → V → K) (rows : List V)
    (hd : Distance vmax dist rows) :
    ∀ (calls : List (KMedoidsCall V)) (q : KMedoidsObject), (∀ c ∈ calls, c.On rows) → 2 ≤ q.medoids.length →
      (∀ m ∈ q.medoids, m < rows.length) →
      ∃ q' as, kmedoidsRun vmax eq dist q calls = some (q', as) ∧ as.length = calls.length ∧
        q'.medoids.length = q.medoids.length ∧ (∀ m ∈ q'.medoids, m < rows.length) ∧
        KMedoids.Spec.td (distances vmax dist rows) rows.length q'.medoids ≤
          KMedoids.Spec.td (distances vmax dist rows) rows.length q.medoids := by
  have hdist : ∀ i j, (hi : i < rows.length) → (hj : j < rows.length) →
      distances vmax dist rows i j = dist rows[i] rows[j] := fun i j hi hj =>
    distances_some (List.getElem?_eq_getElem hi) (List.getElem?_eq_getElem hj)
  have htab : KMedoids.IsTable (distances vmax dist rows) rows.length := by
    refine ⟨fun i o hi ho => ?_, fun i hi => ?_⟩
    · rw [hdist i o hi ho]; exact (hd.1 _ (List.getElem_mem _) _ (List.getElem_mem _)).1
    · rw [hdist i i hi hi]; exact hd.2 _ (List.getElem_mem _)
  have hmax : ∀ i o, i < rows.length → o < rows.length → distances vmax dist rows i o < vmax := by
    intro i o hi ho
    rw [hdist i o hi ho]; exact (hd.1 _ (List.getElem_mem _) _ (List.getElem_mem _)).2
  intro calls
  induction calls with
  | nil => intro q _ _ hq; exact ⟨q, [], rfl, rfl, rfl, hq, le_rfl⟩
  | cons c cs ih =>
    intro q hon h2 hq
    have hcs : ∀ c ∈ cs, c.On rows := fun d hd => hon d (List.mem_cons_of_mem _ hd)
    have hon1 := hon c List.mem_cons_self
    have hne : q.medoids ≠ [] := by intro h; simp [h] at h2
    simp only [kmedoidsRun]
    cases c with
    | setOptions o =>
      obtain ⟨q', as, e, a1, a2, a3, a4⟩ := ih { q with options := o } hcs h2 hq
      refine ⟨q', .done :: as, ?_, by simp [a1], a2, a3, a4⟩
      simp only [kmedoidsCall, Option.bind_eq_bind, Option.bind_some, e]
    | predict ys =>
      obtain rfl : ys = rows := hon1
      obtain ⟨l, el, -⟩ := KMedoids.C45_predict vmax (distances vmax dist ys) ys.length q.medoids hne
        (fun o ho m hm => hmax m o (hq m hm) ho)
      obtain ⟨q', as, e, a1, a2, a3, a4⟩ := ih q hcs h2 hq
      refine ⟨q', .labels l :: as, ?_, by simp [a1], a2, a3, a4⟩
      simp only [kmedoidsCall, inside_of hq, el, Option.bind_eq_bind, Option.bind_some, e, Bool.true_eq_false, if_false]
    | forward ys =>
      obtain rfl : ys = rows := hon1
      obtain ⟨q', as, e, a1, a2, a3, a4⟩ := ih q hcs h2 hq
      refine ⟨q', .distances ((List.range ys.length).map fun o => (KMedoids.first vmax
        (KMedoids.row (distances vmax dist ys) q.medoids o)).2) :: as, ?_, by simp [a1], a2, a3, a4⟩
      simp only [kmedoidsCall, inside_of hq, KMedoids.nearestDistances, hne, Option.bind_eq_bind, Option.bind_some, e,
        Bool.true_eq_false, if_false]
    | fit ys outcome =>
      obtain rfl : ys = rows := hon1
      obtain ⟨r, er, b1, b2, b3⟩ := KMedoids.C73_never_worse_than_given vmax eq (distances vmax dist ys) ys.length
        q.medoids htab h2 hq hmax q.options q.n outcome
      obtain ⟨q', as, e, a1, a2, a3, a4⟩ := ih { q with medoids := r } hcs (by rw [b1]; exact h2) b2
      refine ⟨q', .fitted r :: as, ?_, by simp [a1], a2.trans b1, a3, a4.trans b3⟩
      simp only [kmedoidsCall, inside_of hq, er, Option.bind_eq_bind, Option.bind_some, e, Bool.true_eq_false, if_false]

end Medoids

/-- What a fresh `KMedoids` object with two medoids returns on samples with one feature. -/
def twoMedoids (calls : List (KMedoidsCall ℤ)) : Option (List Nat × List (Answer (List Nat) ℤ)) :=
  (kmedoidsRun 1000 KMedoids.eqZ (fun a b => |a - b|) { n := 2, medoids := [], options := {} } calls).map
    fun r => (r.1.medoids, r.2)

/-- **C112** is false of `KMedoids::predict` on other samples than those of `fit`, which one expects to be
assigned to the nearest of the samples that `fit` selected: after a fit that selects 20 and 1 the value
22 has label 0, that of 20, on the samples of the fit, and label 1 on the same samples in another order; on
fewer samples than a stored index the call reads outside of them. -/
theorem C112_medoids_counterexample :
    (twoMedoids [.fit [0, 1, 5, 13, 20, 22] (fun _ i => i), .predict [0, 1, 5, 13, 20, 22],
      .predict [22, 20, 13, 5, 1, 0]] =
      some ([4, 1], [.fitted [4, 1], .labels [1, 1, 1, 0, 0, 0], .labels [1, 1, 1, 0, 0, 0]])) ∧
    twoMedoids [.fit [0, 1, 5, 13, 20, 22] (fun _ i => i), .predict [3, 4]] = none := by
  decide +kernel

/-- The hypotheses of `C112_medoids` hold for this example, with two calls of `fit`. -/
example : ∃ q' as, kmedoidsRun 1000 KMedoids.eqZ (fun a b : ℤ => |a - b|)
      { n := 2, medoids := [4, 1], options := { maxIter := 1 } }
      [.fit [0, 1, 5, 13, 20, 22] (fun _ i => i), .setOptions {}, .fit [0, 1, 5, 13, 20, 22] (fun _ i => i)] =
      some (q', as) ∧ q'.medoids.length = 2 := by
  obtain ⟨q', as, e, _, h, _⟩ := C112_medoids 1000 KMedoids.eqZ (fun a b : ℤ => |a - b|) [0, 1, 5, 13, 20, 22]
    ⟨by decide, by decide⟩
    [.fit [0, 1, 5, 13, 20, 22] (fun _ i => i), .setOptions {}, .fit [0, 1, 5, 13, 20, 22] (fun _ i => i)]
    { n := 2, medoids := [4, 1], options := { maxIter := 1 } }
    (by intro c hc; simp only [List.mem_cons, List.not_mem_nil, or_false] at hc
        rcases hc with rfl | rfl | rfl <;> simp [KMedoidsCall.On]) (by decide) (by decide)
  exact ⟨q', as, e, h⟩

/-- The hypotheses of `C112_lloyd` and `C112_fit_again` hold for the samples 1, 2, 11, 12 and two stored
centroids. -/
example : ∃ q1, kmeansCall (lloyd (1000 : ℝ) KMeans.edist) within 1000 KMeans.edist
    { n := 2, centroids := [fun _ : Fin 1 => 1, fun _ => 2], options := {}, tolerance := 0 }
    (.fit [fun _ => 1, fun _ => 2, fun _ => 11, fun _ => 12] fun _ _ => []) = some (q1, .fitted q1.centroids) := by
  obtain ⟨q1, e, _⟩ := C112_fit_again (by decide) (1000 : ℝ) 100 (by norm_num)
    [fun _ : Fin 1 => 1, fun _ => 2, fun _ => 11, fun _ => 12] (by
      intro x hx f
      simp only [List.mem_cons, List.not_mem_nil, or_false] at hx
      rcases hx with rfl | rfl | rfl | rfl <;> norm_num)
    { n := 2, centroids := [fun _ : Fin 1 => 1, fun _ => 2], options := {}, tolerance := 0 } (by simp) (by
      intro x hx f
      simp only [List.mem_cons, List.not_mem_nil, or_false] at hx
      rcases hx with rfl | rfl <;> norm_num) rfl (by decide) fun _ _ => []
  exact ⟨q1, e⟩

end Verif.Fitted
