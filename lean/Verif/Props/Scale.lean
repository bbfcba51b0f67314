import Verif.Lemmas.Scale
import Verif.Props.KMeansGeometry
import Verif.Props.KMedoidsFit
import Verif.Props.Silhouette

/-
Property C115: a change of the unit of length.
-/

namespace Verif.Scale

set_option linter.unusedSectionVars false

open Verif.KMeans

variable {K : Type} [Field K] [LinearOrder K] [IsStrictOrderedRing K] {c : K}

/-- Like `fit_hom`, for the candidates that are used only and a loss in other units. -/
theorem fit_scale {S S' C C' : Type} (hc : 0 < c) {init : C → Option S} {init' : C' → Option S'}
    {step : S → Option S}
    {step' : S' → Option S'} {cent : S → C} {cent' : S' → C'} {loss : S → K} {loss' : S' → K}
    {same : C → C → Bool} {same' : C' → C' → Bool} {isEmpty : C → Bool} {isEmpty' : C' → Bool}
    (o : Options) (φS : S → S') (φC : C → C') (P : C → Prop) (I : S → Prop)
    (hinit : ∀ c, P c → init' (φC c) = (init c).map φS) (hI0 : ∀ c s, P c → init c = some s → I s)
    (hstep : ∀ s, I s → step' (φS s) = (step s).map φS)
    (hI : ∀ s s', I s → step s = some s' → I s') (hcent : ∀ s, cent' (φS s) = φC (cent s))
    (hloss : ∀ s, loss' (φS s) = c * loss s)
    (hsame : ∀ a b, same' (φC a) (φC b) = same a b) (hempty : ∀ c, isEmpty' (φC c) = isEmpty c)
    (none' stored : C) (drawn : Nat → C)
    (hP : ∀ c ∈ (if isEmpty stored = true then (List.range o.nInit).map drawn else [stored]), P c) :
    fit init' step' cent' loss' same' isEmpty' (φC none') o (φC stored) (fun i => φC (drawn i)) =
      (fit init step cent loss same isEmpty none' o stored drawn).map φC := by
  have hcs : (if isEmpty' (φC stored) = true then (List.range o.nInit).map (fun i => φC (drawn i))
      else [φC stored]) =
      (if isEmpty stored = true then (List.range o.nInit).map drawn else [stored]).map φC := by
    rw [hempty]
    split
    · rw [List.map_map]; rfl
    · rfl
  have hm : ∀ l : List C, (∀ a ∈ l, P a) →
      (l.map φC).mapM (fun c => (init' c).bind fun s =>
        iterate step' cent' same' o o.maxIter s c (φC none') 0) =
      (l.mapM fun c => (init c).bind fun s => iterate step cent same o o.maxIter s c none' 0).map
        (List.map fun r : S × C => (φS r.1, φC r.2)) := by
    intro l
    induction l with
    | nil => intro _; simp
    | cons a l ih =>
      intro hl
      rw [List.map_cons, List.mapM_cons, List.mapM_cons, ih fun b hb => hl b (List.mem_cons_of_mem _ hb),
        hinit a (hl a List.mem_cons_self)]
      cases hs : init a with
      | none => rfl
      | some s =>
        simp only [Option.map_some, Option.bind_some]
        rw [iterate_hom o φS φC I hstep hI hcent hsame o.maxIter s a none' 0
          (hI0 a s (hl a List.mem_cons_self) hs)]
        cases iterate step cent same o o.maxIter s a none' 0 with
        | none => rfl
        | some r =>
          cases l.mapM fun c => (init c).bind fun s => iterate step cent same o o.maxIter s c none' 0 <;>
            rfl
  unfold fit
  simp only [hcs, Option.bind_eq_bind]
  rw [hm _ hP]
  cases List.mapM (fun c => (init c).bind fun s => iterate step cent same o o.maxIter s c none' 0)
      (if isEmpty stored = true then (List.range o.nInit).map drawn else [stored]) with
  | none => rfl
  | some runs =>
    have hl : (runs.map fun r => c * loss r.1) = (runs.map fun r => loss r.1).map (c * ·) := by
      rw [List.map_map]; rfl
    simp only [Option.map_some, Option.bind_some, List.map_map, Function.comp_def,
      hloss, List.getElem?_map]
    rw [hl, argmin_scale hc]
    cases Stats.argmin none (runs.map fun r => loss r.1) with
    | none => rfl
    | some i =>
      simp only [Option.bind_some]
      cases runs[i]? <;> rfl

/-- The case of centroids that do not change. -/
theorem fit_scale_id {S S' C : Type} (hc : 0 < c) {init : C → Option S} {init' : C → Option S'}
    {step : S → Option S} {step' : S' → Option S'} {cent : S → C} {cent' : S' → C} {loss : S → K}
    {loss' : S' → K} {same : C → C → Bool} {isEmpty : C → Bool}
    (o : Options) (φS : S → S') (P : C → Prop)
    (hinit : ∀ c, P c → init' c = (init c).map φS)
    (hstep : ∀ s, step' (φS s) = (step s).map φS) (hcent : ∀ s, cent' (φS s) = cent s)
    (hloss : ∀ s, loss' (φS s) = c * loss s) (none' stored : C) (drawn : Nat → C)
    (hP : ∀ c ∈ (if isEmpty stored = true then (List.range o.nInit).map drawn else [stored]), P c) :
    fit init' step' cent' loss' same isEmpty none' o stored drawn =
      fit init step cent loss same isEmpty none' o stored drawn := by
  have h := fit_scale hc (same := same) (same' := same) (isEmpty := isEmpty) (isEmpty' := isEmpty) o φS
    (id : C → C) P (fun _ => True) hinit (fun _ _ _ _ => trivial) (fun s _ => hstep s)
    (fun _ _ _ _ => trivial) hcent hloss (fun _ _ => rfl) (fun _ => rfl) none' stored drawn hP
  rw [show (Option.map (id : C → C)) = id from by funext x; cases x <;> rfl] at h
  exact h

/-! ### k-means -/

section Similarity

variable {V W : Type} [AddCommGroup V] [AddCommGroup W] [Module K V] [Module K W]

/-- **C115**, labels: when a map multiplies all distances by `c`, a sample gets the label that its image
gets.  `inf` is +infinity in the code, so `c * inf` is the same value there. -/
theorem C115_labels (hc : 0 < c) (φ : V → W) (dist : V → V → K) (dist' : W → W → K)
    (h : ∀ a b, dist' (φ a) (φ b) = c * dist a b) (inf : K) (xs cs : List V) :
    nearestIndices (c * inf) dist' (xs.map φ) (cs.map φ) = nearestIndices inf dist xs cs := by
  rw [nearestIndices_move (dist := fun a b => c * dist a b) h]
  exact nearestIndices_scale hc (fun _ _ => rfl) inf xs cs

/-- **C115**, Lloyd: when a linear map multiplies all distances by `c`, after any number of steps the
centroids on the mapped data are the mapped centroids, the assignment is the same and the distances and
the loss are multiplied by `c`.  For all samples and centroids, with ties and empty clusters. -/
theorem C115_lloyd (hc : 0 < c) (L : V →ₗ[K] W) (dist : V → V → K) (dist' : W → W → K)
    (h : ∀ a b, dist' (L a) (L b) = c * dist a b) (inf : K) (xs cs : List V) (n : Nat) :
    runN (lloydStep (c * inf) dist' (xs.map L)) n (lloydInit (c * inf) dist' (xs.map L) (cs.map L)) =
      (runN (lloydStep inf dist xs) n (lloydInit inf dist xs cs)).map fun s =>
        ⟨s.centroids.map L, s.assigned, s.distances.map (c * ·), c * s.loss⟩ := by
  rw [C92_lloyd_linear L (fun a b => c * dist a b) dist' h,
    lloydInit_scale hc (dist := dist) (fun _ _ => rfl)]
  rw [runN_hom (lscale c) (lloydInit inf dist xs cs) n fun m _ t _ =>
    lloydStep_scale hc (fun _ _ => rfl) inf xs t, Option.map_map]
  rfl

/-- **C115**, Hamerly: the same, for every map `x ↦ L x + v` that multiplies all distances by `c`; the
bounds are multiplied by `c` as well.  `vmax` and `lowest` are the greatest and the least value of the
floating type, which are not multiplied by `c` in the code: they stand in for the second nearest centroid
of a sample that has none, and for the speed of a second centroid if there is one centroid only. -/
theorem C115_hamerly_partial (hc : 0 < c) (L : V →ₗ[K] W) (v : W) (dist : V → V → K) (dist' : W → W → K)
    (h : ∀ a b, dist' (L a + v) (L b + v) = c * dist a b) (inf vmax lowest : K)
    (eq eq' : K → K → Bool) (he : ∀ a b, eq' (c * a) (c * b) = eq a b) (xs cs : List V) (n : Nat) :
    ((hamerlyInit (c * inf) (c * vmax) eq' dist' (xs.map fun x => L x + v)
        (cs.map fun x => L x + v)).bind
        (runN (hamerlyStep (c * inf) (c * lowest) dist' (xs.map fun x => L x + v)) n)).map
        (fun s => (s.centroids, s.cached.map (·.assigned), s.sizes, s.loss)) =
      ((hamerlyInit inf vmax eq dist xs cs).bind (runN (hamerlyStep inf lowest dist xs) n)).map
        fun s => (s.centroids.map fun x => L x + v, s.cached.map (·.assigned), s.sizes, c * s.loss) := by
  have h1 := C92_hamerly L v (fun a b => c * dist a b) dist' h (c * inf) (c * vmax) (c * lowest) eq' xs
    cs n
  have h2 := congrArg (Option.map fun t : List W × List (Cached K) × List K × List Nat × K =>
    (t.1, t.2.1.map (·.assigned), t.2.2.2.1, t.2.2.2.2)) h1
  simp only [Option.map_map, Function.comp_def] at h2
  rw [h2, hamerlyInit_scale hc (dist := dist) (fun _ _ => rfl) he]
  cases hamerlyInit inf vmax eq dist xs cs with
  | none => rfl
  | some s0 =>
    simp only [Option.map_some, Option.bind_some]
    rw [runN_hom (hscale c) s0 n fun m _ t _ =>
      hamerlyStep_scale hc (fun _ _ => rfl) inf lowest xs t, Option.map_map]
    cases runN (hamerlyStep inf lowest dist xs) n s0 with
    | none => rfl
    | some t => simp [hscale, cscale, Function.comp_def]

/-- **C115**, k-means++ with the alias method: with the same outcomes `r`, `u` of the generator the same
samples are drawn. -/
theorem C115_plus_plus (hc : 0 < c) (φ : V → W) (dist : V → V → K) (dist' : W → W → K)
    (h : ∀ a b, dist' (φ a) (φ b) = c * dist a b) (inf : K) (r : Nat → Nat) (u : Nat → K)
    (first : Nat) (xs : List V) (k : Nat) :
    plusPlus (c * inf) dist' (fun i w => (Random.aliasInit w).bind fun t => Random.aliasSample t (r i) (u i))
        first (xs.map φ) k =
      (plusPlus inf dist (fun i w => (Random.aliasInit w).bind fun t => Random.aliasSample t (r i) (u i))
        first xs k).map (List.map φ) := by
  rw [plusPlus_move (dist := fun a b => c * dist a b) h]
  congr 1
  have hl : ∀ (k : Nat) (cs : List V), plusPlusLoop (c * inf) (fun a b => c * dist a b)
      (fun i w => (Random.aliasInit w).bind fun t => Random.aliasSample t (r i) (u i)) xs k cs =
      plusPlusLoop inf dist
      (fun i w => (Random.aliasInit w).bind fun t => Random.aliasSample t (r i) (u i)) xs k cs := by
    intro k
    induction k with
    | zero => intro cs; rfl
    | succ k ih =>
      intro cs
      simp only [plusPlusLoop, ih, nearestDistances_scale hc (dist := dist) (fun _ _ => rfl),
        aliasInit_scale hc]
  simp only [plusPlus, hl]

end Similarity

/-! ### `fit` -/

section Fit

variable {nf : Nat}

theorem flatRows_smul (a : List (Fin nf → K)) :
    flatRows (a.map (c • ·)) = (flatRows a).map (c * ·) := by
  induction a with
  | nil => rfl
  | cons x a ih =>
    simp only [flatRows, List.map_cons, List.flatMap_cons, List.map_append] at ih ⊢
    rw [ih, List.map_ofFn]
    rfl

theorem same_scale (hc : 0 < c) (tol : K) (a b : List (Fin nf → K)) :
    containersEqual (c * tol) (flatRows (a.map (c • ·))) (flatRows (b.map (c • ·))) =
      containersEqual tol (flatRows a) (flatRows b) := by
  simp only [containersEqual, flatRows_smul, List.length_map, List.zipWith_map, ← mul_sub, abs_mul,
    abs_of_pos hc, mul_le_mul_iff_right₀ hc]

/-- **C115**, `KMeans<Lloyd>::fit`: on data in other units, with initial centroids (stored or drawn) in
these units and the tolerance in these units, `fit` returns the centroids in these units; in particular
with the tolerance 0, which is the default. -/
theorem C115_lloyd_fit (hc : 0 < c) (dist : (Fin nf → K) → (Fin nf → K) → K)
    (h : ∀ a b, dist (c • a) (c • b) = c * dist a b) (inf tol : K) (xs : List (Fin nf → K)) (o : Options)
    (stored : List (Fin nf → K)) (drawn : Nat → List (Fin nf → K)) :
    fit (fun cs => some (lloydInit (c * inf) dist (xs.map (c • ·)) cs))
        (lloydStep (c * inf) dist (xs.map (c • ·))) (·.centroids) (·.loss)
        (fun a b => containersEqual (c * tol) (flatRows a) (flatRows b)) List.isEmpty [] o
        (stored.map (c • ·)) (fun i => (drawn i).map (c • ·)) =
      (fit (fun cs => some (lloydInit inf dist xs cs)) (lloydStep inf dist xs) (·.centroids) (·.loss)
        (fun a b => containersEqual tol (flatRows a) (flatRows b)) List.isEmpty [] o
        stored drawn).map (List.map (c • ·)) := by
  let L : (Fin nf → K) →ₗ[K] (Fin nf → K) := LinearMap.lsmul K _ c
  have hL : (fun x => L x + 0) = (c • · : (Fin nf → K) → (Fin nf → K)) := by
    funext x; simp [L]
  have h' : ∀ a b, dist (L a + 0) (L b + 0) = c * dist a b := by simpa [L] using h
  refine fit_scale hc o (fun s => lscale c (s.move L 0)) (List.map (c • ·)) (fun _ => True)
    (fun s => s.assigned.length = xs.length) ?_ ?_ ?_ ?_ ?_ ?_ (same_scale hc tol) (by simp) [] stored
    drawn (fun _ _ => trivial)
  · intro cs _
    have := lloydInit_move (dist := fun a b => c * dist a b) h' (c * inf) xs cs
    rw [hL] at this
    rw [this, lloydInit_scale hc (dist := dist) (fun _ _ => rfl)]
    rfl
  · intro cs s _ hs
    rw [← Option.some.inj hs]
    simp [lloydInit, nearestIndices]
  · intro s hs
    have := lloydStep_move (dist := fun a b => c * dist a b) h' (c * inf) xs (lscale c s) hs (Or.inl rfl)
    rw [hL, lloydStep_scale hc (dist := dist) (fun _ _ => rfl), Option.map_map] at this
    exact this
  · intro s s' _ hs
    simp only [lloydStep, Option.bind_eq_bind, Option.bind_eq_some_iff, Option.some.injEq] at hs
    obtain ⟨_, _, _, _, rfl⟩ := hs
    simp [lloydInit, nearestIndices]
  · intro s
    simp only [lscale, LState.move, hL]
  · intro s; rfl

end Fit

/-! ### k-medoids -/

section Medoids

open Verif.KMedoids Verif.KMedoids.Spec

/-- Without ties the state of `FasterPAM` after construction depends neither on the sentinel nor on the
comparison. -/
theorem pamInit_indep {vmax vmax' : K} {eq eq' : K → K → Bool} {d : Nat → Nat → K} {n : Nat}
    {ms : List Nat} (hk : 2 ≤ ms.length) (hv : ∀ o, o < n → ∀ m ∈ ms, d m o < vmax)
    (hv' : ∀ o, o < n → ∀ m ∈ ms, d m o < vmax') (ht : ∀ o, o < n → NoTies eq (dists d ms o))
    (ht' : ∀ o, o < n → NoTies eq' (dists d ms o)) :
    pamInit vmax' eq' d n ms = pamInit vmax eq d n ms := by
  obtain ⟨s, e, m, ok, b⟩ := pamInit_spec vmax eq hk hv ht
  obtain ⟨s', e', m', ok', b'⟩ := pamInit_spec vmax' eq' hk hv' ht'
  rw [e, e']
  congr 1
  have hb : s'.buf = s.buf := by
    apply List.ext_getElem (by rw [ok.len, ok'.len])
    intro o h1 h2
    have h3 := ok.recs o _ (List.getElem?_eq_getElem h2)
    have h4 := ok'.recs o _ (List.getElem?_eq_getElem h1)
    rw [m] at h3
    rw [m'] at h4
    exact firstTwo_unique (ht o (by rw [← ok.len]; exact h2)) h4 h3
  have hr : s'.removal = s.removal := by
    have h1 := ok.rem
    have h2 := ok'.rem
    rw [m, ] at h1
    rw [m', hb, h1] at h2
    exact (Option.some.inj h2).symm
  have hl : s'.loss = s.loss := by rw [ok.loss, ok'.loss, m, m']
  obtain ⟨a1, a2, a3, a4⟩ := s
  obtain ⟨b1, b2, b3, b4⟩ := s'
  simp only at m m' hb hr hl
  rw [m, m', hb, hr, hl]

theorem noTies_scale (hc : 0 < c) {eq : K → K → Bool} {l : List K} (h : NoTies eq l) :
    NoTies (fun a b => eq (c⁻¹ * a) (c⁻¹ * b)) (l.map (c * ·)) := by
  intro i j x y hij hx hy
  rw [List.getElem?_map, Option.map_eq_some_iff] at hx hy
  obtain ⟨a, ha, rfl⟩ := hx
  obtain ⟨b, hb, rfl⟩ := hy
  obtain ⟨h1, h2⟩ := h i j a b hij ha hb
  refine ⟨fun e => h1 (mul_left_cancel₀ hc.ne' e), ?_⟩
  simp only [inv_mul_cancel_left₀ hc.ne', h2]

theorem pamInit_units (hc : 0 < c) {vmax : K} {eq : K → K → Bool} {d d' : Nat → Nat → K} {n : Nat}
    {ms : List Nat} (hd : ∀ a b, d' a b = c * d a b) (hk : 2 ≤ ms.length)
    (hv : ∀ o, o < n → ∀ m ∈ ms, d m o < vmax ∧ d' m o < vmax)
    (ht : ∀ o, o < n → NoTies eq (dists d ms o) ∧ NoTies eq (dists d' ms o)) :
    pamInit vmax eq d' n ms = (pamInit vmax eq d n ms).map (pscale c) := by
  rw [← pamInit_scale hc hd (eq' := fun a b => eq (c⁻¹ * a) (c⁻¹ * b)) (by
    intro a b
    simp only [inv_mul_cancel_left₀ hc.ne'])]
  refine pamInit_indep hk ?_ (fun o ho m hm => (hv o ho m hm).2) ?_ fun o ho => (ht o ho).2
  · intro o ho m hm
    rw [hd]
    exact (lt_iff hc _ _).2 (hv o ho m hm).1
  · intro o ho
    have h1 : dists d' ms o = (dists d ms o).map (c * ·) := row_scale hd ms o
    rw [h1]
    exact noTies_scale hc (ht o ho).1

/-- **C115**, `predict` of k-medoids: multiplying the table by `c` does not change the labels. -/
theorem C115_medoids_labels (hc : 0 < c) (vmax : K) (d : Nat → Nat → K) (n : Nat) (ms : List Nat)
    (hv : ∀ o, o < n → ∀ m ∈ ms, d m o < vmax ∧ c * d m o < vmax) :
    KMedoids.nearestIndices vmax (fun a b => c * d a b) n ms = KMedoids.nearestIndices vmax d n ms := by
  rw [← medoidIndices_scale hc (d' := fun a b => c * d a b) (fun _ _ => rfl) vmax n ms]
  unfold KMedoids.nearestIndices
  split
  · rfl
  · congr 1
    refine List.map_congr_left fun o ho => ?_
    have ho := List.mem_range.1 ho
    cases ms with
    | nil => rfl
    | cons m ms =>
      have h := hv o ho m List.mem_cons_self
      simp only [first, row, List.map_cons, firstLoop, if_pos h.2, if_pos ((lt_iff hc _ _).2 h.1)]

/-- **C115**, FasterPAM (partial: at least two medoids, no sample with two equally near initial medoids
in either unit, see `C115_medoids_counterexample`): when the table is multiplied by `c` every step
exchanges the same medoids, and the loss is multiplied by `c`.  `vmax` and the comparison `eq`, which has
an absolute tolerance, are the same in both units. -/
theorem C115_medoids_partial (hc : 0 < c) (vmax : K) (eq : K → K → Bool) (d : Nat → Nat → K) (n : Nat)
    (ms : List Nat) (hk : 2 ≤ ms.length)
    (hv : ∀ o, o < n → ∀ m ∈ ms, d m o < vmax ∧ c * d m o < vmax)
    (ht : ∀ o, o < n → NoTies eq (dists d ms o) ∧ NoTies eq (dists (fun a b => c * d a b) ms o))
    (steps : Nat) :
    ((pamInit vmax eq (fun a b => c * d a b) n ms).bind
        (runN (pamStep (fun a b => c * d a b) n) steps)).map (fun s => (s.medoids, s.loss)) =
      ((pamInit vmax eq d n ms).bind (runN (pamStep d n) steps)).map
        fun s => (s.medoids, c * s.loss) := by
  rw [pamInit_units hc (d := d) (fun _ _ => rfl) hk hv ht]
  cases pamInit vmax eq d n ms with
  | none => rfl
  | some s0 =>
    simp only [Option.map_some, Option.bind_some]
    rw [runN_hom (pscale c) s0 steps fun m _ t _ => pamStep_scale hc (fun _ _ => rfl) n t,
      Option.map_map]
    rfl

/-- **C115**, `KMedoids::fit` (partial as above, for every initial candidate that is used): the same
medoids are returned. -/
theorem C115_medoids_fit_partial (hc : 0 < c) (vmax : K) (eq : K → K → Bool) (d : Nat → Nat → K)
    (n k : Nat) (o : Options) (stored : List Nat) (outcome : Nat → Nat → Nat)
    (h : ∀ ms, (ms = stored ∨ ∃ i, Random.fromInterval (outcome i) k 0 n = some ms) → ms ≠ [] →
      2 ≤ ms.length ∧ ∀ o, o < n → (∀ m ∈ ms, d m o < vmax ∧ c * d m o < vmax) ∧
        NoTies eq (dists d ms o) ∧ NoTies eq (dists (fun a b => c * d a b) ms o)) :
    KMedoids.fit vmax eq (fun a b => c * d a b) n k o stored outcome =
      KMedoids.fit vmax eq d n k o stored outcome := by
  unfold KMedoids.fit
  cases hdr : (List.range (if stored = [] then o.nInit else 0)).mapM fun i =>
      Random.fromInterval (outcome i) k 0 n with
  | none => simp only [Option.bind_eq_bind, Option.bind_none]
  | some drawn =>
    simp only [Option.bind_eq_bind, Option.bind_some]
    refine fit_scale_id hc o (pscale c)
      (fun ms => ms = stored ∨ ms = [] ∨ ∃ i, Random.fromInterval (outcome i) k 0 n = some ms)
      ?_ (fun s => pamStep_scale hc (fun _ _ => rfl) n s) (fun _ => rfl) (fun _ => rfl) [] stored
      (fun i => drawn.getD i []) ?_
    · intro ms hms
      by_cases h0 : ms = []
      · subst h0
        have hnil : ∀ d : Nat → Nat → K, pamInit vmax eq d n [] = none := by
          intro d
          simp [pamInit, nthIndices]
        rw [hnil, hnil]
        rfl
      · obtain ⟨h1, h2⟩ := h ms (by
          rcases hms with h3 | h3 | h3
          · exact Or.inl h3
          · exact absurd h3 h0
          · exact Or.inr h3) h0
        exact pamInit_units hc (fun _ _ => rfl) h1 (fun o ho => (h2 o ho).1) fun o ho => (h2 o ho).2
    · intro ms hms
      split at hms
      · obtain ⟨i, -, rfl⟩ := List.mem_map.1 hms
        right
        rw [List.getD_eq_getElem?_getD]
        cases hi : drawn[i]? with
        | none => exact Or.inl rfl
        | some ms =>
          right
          have hmem : ms ∈ drawn := List.mem_of_getElem? hi
          have hall : ∀ (l : List Nat) (r : List (List Nat)),
              (l.mapM fun i => Random.fromInterval (outcome i) k 0 n) = some r → ∀ a ∈ r,
              ∃ i, Random.fromInterval (outcome i) k 0 n = some a := by
            intro l
            induction l with
            | nil =>
              intro r hr a ha
              simp only [List.mapM_nil, Option.pure_def, Option.some.injEq] at hr
              subst hr
              cases ha
            | cons b l ih =>
              intro r hr a ha
              simp only [List.mapM_cons, Option.bind_eq_bind, Option.bind_eq_some_iff,
                Option.pure_def, Option.some.injEq] at hr
              obtain ⟨x, hx, t, htl, rfl⟩ := hr
              rcases List.mem_cons.1 ha with rfl | ha
              · exact ⟨b, hx⟩
              · exact ih t htl a ha
          exact hall _ _ hdr ms hmem
      · exact Or.inl (List.mem_singleton.1 hms)

/-- **C115 is false of FasterPAM when distances become ties**: `common::equality` has an absolute
tolerance (here 1/100).  Samples 3, 4, 5, 6, 7, 8 with initial medoids 0 and 1 give the medoids 4 and 1,
of total deviation 4; measured in a unit 10000 times larger they give 0 and 3, of total deviation 5 in the
old unit. -/
theorem C115_medoids_counterexample :
    KMedoids.fit (1000 : ℚ) (fun a b => decide (|a - b| ≤ 1 / 100))
      (fun i j => |([3, 4, 5, 6, 7, 8] : List ℚ).getD i 0 - ([3, 4, 5, 6, 7, 8] : List ℚ).getD j 0|) 6 2
      {} [0, 1] (fun _ i => i) = some [4, 1] ∧
    KMedoids.fit (1000 : ℚ) (fun a b => decide (|a - b| ≤ 1 / 100))
      (fun i j => 1 / 10000 * |([3, 4, 5, 6, 7, 8] : List ℚ).getD i 0 -
        ([3, 4, 5, 6, 7, 8] : List ℚ).getD j 0|) 6 2 {} [0, 1] (fun _ i => i) = some [0, 3] := by
  decide +kernel

/-- **C115, the tolerance of `KMeans`** is a length too: with the tolerance 1/10 the samples 0, 1, 2, 3,
4, 20 give the centroids 2 and 20; in a unit 100 times larger, with the same tolerance, `fit` stops at
3/200 and 3/25, which are 1.5 and 12 in the old unit. -/
theorem C115_tolerance_counterexample :
    fit (fun cs => some (lloydInit (1000 : ℚ) (fun a b => |a - b|) [0, 1, 2, 3, 4, 20] cs))
      (lloydStep 1000 (fun a b => |a - b|) [0, 1, 2, 3, 4, 20]) (·.centroids) (·.loss)
      (fun a b => containersEqual (1 / 10) a b) List.isEmpty [] {} [0, 1] (fun _ => []) =
        some [2, 20] ∧
    fit (fun cs => some (lloydInit (1000 : ℚ) (fun a b => |a - b|)
        [0, 1 / 100, 2 / 100, 3 / 100, 4 / 100, 20 / 100] cs))
      (lloydStep 1000 (fun a b => |a - b|) [0, 1 / 100, 2 / 100, 3 / 100, 4 / 100, 20 / 100])
      (·.centroids) (·.loss) (fun a b => containersEqual (1 / 10) a b) List.isEmpty [] {} [0, 1 / 100]
      (fun _ => []) = some [3 / 200, 3 / 25] := by
  decide +kernel

end Medoids

/-! ### silhouette -/

section Silhouette

open Verif.Silhouette Verif.Silhouette.Spec

theorem mean_scale (d : Nat → Nat → K) (i : Nat) (js : List Nat) :
    Spec.mean (fun a b => c * d a b) i js = c * Spec.mean d i js := by
  have : js.map (fun b => c * d i b) = (js.map (d i)).map (c * ·) := by rw [List.map_map]; rfl
  simp only [Spec.mean]
  rw [this, sum_scale, mul_div_assoc]

theorem score_scale (hc : 0 < c) (a b : K) : Spec.score (c * a) (c * b) = Spec.score a b := by
  unfold Spec.score
  rw [← mul_max_of_nonneg _ _ hc.le, ← mul_sub, mul_div_mul_left _ _ hc.ne']

/-- **C115**, `silhouette`: for every labelling and all distances the scores do not depend on the unit. -/
theorem C115_silhouette (hc : 0 < c) {d : Nat → Nat → K} {labels : List Nat} (hne : labels ≠ [])
    (hd : ∀ i j, 0 ≤ d i j) :
    silhouette (floatOps K) none (fun i j => ((c * d i j : K) : WithTop K)) labels.length labels =
      silhouette (floatOps K) none (fun i j => (d i j : WithTop K)) labels.length labels := by
  obtain ⟨f, e, hf⟩ := silhouette_spec hne hd
  obtain ⟨f', e', hf'⟩ := silhouette_spec (d := fun i j => c * d i j) hne
    fun i j => mul_nonneg hc.le (hd i j)
  rw [e, e']
  congr 1
  refine List.map_congr_left fun i hi => ?_
  have hi := List.mem_range.1 hi
  have key : ∀ {d : Nat → Nat → K} {q : Nat} {b : K}, IsBetween d labels i q b →
      ¬ ∀ p ∈ labels, p = q := by
    intro d q b h hall
    obtain ⟨⟨q', hq, hm, -⟩, -⟩ := h
    obtain ⟨j, hj⟩ := List.exists_mem_of_ne_nil _ hm
    simp only [Spec.members, List.mem_filter, decide_eq_true_eq] at hj
    exact hq (hall q' (List.mem_of_getElem? hj.2))
  have h1 := hf i _ (List.getElem?_eq_getElem hi)
  have h2 := hf' i _ (List.getElem?_eq_getElem hi)
  have : f' i = f i := by
    rcases h1 with ⟨b, hb, hs, -⟩ | ⟨hall, hs⟩
    · rcases h2 with ⟨b', hb', hs', -⟩ | ⟨hall', -⟩
      · have hbb : b' = c * b := by
          obtain ⟨⟨q, hq, hm, eb⟩, hmin⟩ := hb
          obtain ⟨⟨q', hq', hm', eb'⟩, hmin'⟩ := hb'
          refine le_antisymm ?_ ?_
          · have := hmin' q hq hm
            rw [mean_scale] at this
            rwa [eb]
          · rw [eb', mean_scale]
            exact (mul_le_mul_iff_right₀ hc).2 (hmin q' hq' hm')
        rw [hs, hs', hbb, within, mean_scale, score_scale hc]
        rfl
      · exact absurd hall' (key hb)
    · rcases h2 with ⟨b', hb', -, -⟩ | ⟨-, hs'⟩
      · exact absurd hall (key hb')
      · rw [hs, hs']
  rw [this]

end Silhouette

/-! ### the hypotheses can be met -/

/-- The euclidean distance of points in other units. -/
theorem edist_smul {nf : Nat} {c : ℝ} (hc : 0 < c) (a b : Fin nf → ℝ) :
    KMeans.edist (c • a) (c • b) = c * KMeans.edist a b := by
  have h : KMeans.sq (c • a) (c • b) = c ^ 2 * KMeans.sq a b := by
    simp only [KMeans.sq, Finset.mul_sum]
    refine Finset.sum_congr rfl fun i _ => ?_
    simp only [Pi.smul_apply, smul_eq_mul]
    ring
  show Real.sqrt _ = c * Real.sqrt _
  rw [h, Real.sqrt_mul (sq_nonneg c), Real.sqrt_sq hc.le]

/-- `KMeans<Lloyd>::fit` with the default tolerance on data in metres and in centimetres. -/
example {nf : Nat} (inf : ℝ) (xs : List (Fin nf → ℝ)) (o : Options) (stored : List (Fin nf → ℝ)) :
    fit (fun cs => some (lloydInit (100 * inf) KMeans.edist (xs.map ((100 : ℝ) • ·)) cs))
        (lloydStep (100 * inf) KMeans.edist (xs.map ((100 : ℝ) • ·))) (·.centroids) (·.loss)
        (fun a b => containersEqual 0 (flatRows a) (flatRows b)) List.isEmpty [] o
        (stored.map ((100 : ℝ) • ·)) (fun _ => []) =
      (fit (fun cs => some (lloydInit inf KMeans.edist xs cs)) (lloydStep inf KMeans.edist xs)
        (·.centroids) (·.loss) (fun a b => containersEqual 0 (flatRows a) (flatRows b)) List.isEmpty [] o
        stored (fun _ => [])).map (List.map ((100 : ℝ) • ·)) := by
  have := C115_lloyd_fit (c := (100 : ℝ)) (by norm_num) KMeans.edist (edist_smul (by norm_num)) inf 0 xs
    o stored (fun _ => [])
  simpa using this

/-- FasterPAM on the samples 0, 1, 5, 13, 20, 22 in two units, with equality up to 1/100. -/
example :
    (∀ o : Fin 6, KMedoids.Spec.NoTies (fun a b : ℚ => decide (|a - b| ≤ 1 / 100))
      (KMedoids.Spec.dists (fun i j => |([0, 1, 5, 13, 20, 22] : List ℚ).getD i 0 -
        ([0, 1, 5, 13, 20, 22] : List ℚ).getD j 0|) [0, 1] o)) ∧
    KMedoids.fit (1000 : ℚ) (fun a b => decide (|a - b| ≤ 1 / 100))
      (fun i j => |([0, 1, 5, 13, 20, 22] : List ℚ).getD i 0 -
        ([0, 1, 5, 13, 20, 22] : List ℚ).getD j 0|) 6 2 {} [0, 1] (fun _ i => i) =
    KMedoids.fit (1000 : ℚ) (fun a b => decide (|a - b| ≤ 1 / 100))
      (fun i j => 1 / 10 * |([0, 1, 5, 13, 20, 22] : List ℚ).getD i 0 -
        ([0, 1, 5, 13, 20, 22] : List ℚ).getD j 0|) 6 2 {} [0, 1] (fun _ i => i) := by
  refine ⟨fun o => ?_, by decide +kernel⟩
  rw [KMedoids.noTies_iff]
  revert o
  decide +kernel

end Verif.Scale
