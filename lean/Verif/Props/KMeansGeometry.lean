import Verif.Props.KMeansConvergence
import Verif.Lemmas.KMeansMotion

/-
k-means on moved data gives the moved centroids and the same labels (C92).
-/

namespace Verif.KMeans

set_option linter.unusedSectionVars false

section Motion

variable {V W K : Type} [AddCommGroup V] [AddCommGroup W] [Field K] [LinearOrder K]
  [IsStrictOrderedRing K] [Module K V] [Module K W]

theorem runN_hom {S S' : Type} {step : S → Option S} {step' : S' → Option S'} (φ : S → S') (s : S) :
    ∀ n, (∀ m < n, ∀ t, runN step m s = some t → step' (φ t) = (step t).map φ) →
      runN step' n (φ s) = (runN step n s).map φ
  | 0, _ => rfl
  | n + 1, h => by
    simp only [runN, runN_hom φ s n fun m hm => h m (by omega)]
    cases hr : runN step n s with
    | none => rfl
    | some t => exact h n (by omega) t hr

theorem lloyd_run_length {inf : K} {dist : V → V → K} {xs : List V} {cs : List V} : ∀ (n : Nat)
    {s : LState V K}, runN (lloydStep inf dist xs) n (lloydInit inf dist xs cs) = some s →
      s.assigned.length = xs.length
  | 0, s, h => by
    rw [← Option.some.inj h]
    simp [lloydInit, nearestIndices]
  | n + 1, s, h => by
    simp only [runN, Option.bind_eq_some_iff] at h
    obtain ⟨t, _, h⟩ := h
    simp only [lloydStep, Option.bind_eq_bind, Option.bind_eq_some_iff, Option.some.injEq] at h
    obtain ⟨_, _, _, _, rfl⟩ := h
    simp [lloydInit, nearestIndices]

/-- **C92**, Lloyd and linear maps that keep distances (rotations, reflections, reordered features):
after any number of steps the centroids on the mapped data are the mapped centroids; assignment and
loss are the same.  For all samples and centroids, with ties and empty clusters. -/
theorem C92_lloyd_linear (L : V →ₗ[K] W) (dist : V → V → K) (dist' : W → W → K)
    (h : ∀ a b, dist' (L a) (L b) = dist a b) (inf : K) (xs cs : List V) (n : Nat) :
    runN (lloydStep inf dist' (xs.map L)) n (lloydInit inf dist' (xs.map L) (cs.map L)) =
      (runN (lloydStep inf dist xs) n (lloydInit inf dist xs cs)).map fun s =>
        ⟨s.centroids.map L, s.assigned, s.distances, s.loss⟩ := by
  have h' : ∀ a b, dist' (L a + 0) (L b + 0) = dist a b := by simpa using h
  have hL : (fun x => L x + 0) = L := by funext x; simp
  have h0 := lloydInit_move h' inf xs cs
  have hm : (fun s : LState V K => LState.mk (s.centroids.map L) s.assigned s.distances s.loss) =
      LState.move L 0 := by
    funext s; simp only [LState.move, hL]
  rw [hm]
  rw [hL] at h0
  rw [h0]
  refine runN_hom _ _ n fun m _ t ht => ?_
  have := lloydStep_move h' inf xs t (lloyd_run_length m ht) (Or.inl rfl)
  rw [hL] at this
  exact this

/-- **C92**, Lloyd and motions `x ↦ L x + v` that keep distances: the run on the moved data is the moved
run as long as no cluster is empty.  Missing: empty clusters, whose centroid is put at the origin
wherever the data is (`C92_lloyd_counterexample`). -/
theorem C92_lloyd_partial (L : V →ₗ[K] W) (v : W) (dist : V → V → K) (dist' : W → W → K)
    (h : ∀ a b, dist' (L a + v) (L b + v) = dist a b) (inf : K) (xs cs : List V) (n : Nat)
    (hne : ∀ m < n, ∀ s, runN (lloydStep inf dist xs) m (lloydInit inf dist xs cs) = some s →
      ∀ j < s.centroids.length, j ∈ s.assigned) :
    runN (lloydStep inf dist' (xs.map fun x => L x + v)) n
        (lloydInit inf dist' (xs.map fun x => L x + v) (cs.map fun x => L x + v)) =
      (runN (lloydStep inf dist xs) n (lloydInit inf dist xs cs)).map fun s =>
        ⟨s.centroids.map fun x => L x + v, s.assigned, s.distances, s.loss⟩ := by
  rw [lloydInit_move h]
  exact runN_hom (LState.move L v) _ n fun m hm t ht =>
    lloydStep_move h inf xs t (lloyd_run_length m ht) (Or.inr (hne m hm t ht))

/-- **C92, what fails.**  Samples 10, 11 with centroids 10, 50: the second cluster is empty.  One Lloyd
step gives the centroids 10.5 and 0; with everything moved by 5 it gives 15.5 and 0, not 5.  After a
second step on samples 10, 11 moved by -10 the samples are even split between the two centroids. -/
theorem C92_lloyd_counterexample :
    (runN (lloydStep (1000 : ℚ) (fun a b => |a - b|) [10, 11]) 2
      (lloydInit 1000 (fun a b => |a - b|) [10, 11] [10, 50])).map
        (fun s => (s.centroids, s.assigned)) = some ([21 / 2, 0], [0, 0]) ∧
    (runN (lloydStep (1000 : ℚ) (fun a b => |a - b|) [15, 16]) 2
      (lloydInit 1000 (fun a b => |a - b|) [15, 16] [15, 55])).map
        (fun s => (s.centroids, s.assigned)) = some ([31 / 2, 0], [0, 0]) ∧
    (runN (lloydStep (1000 : ℚ) (fun a b => |a - b|) [0, 1]) 2
      (lloydInit 1000 (fun a b => |a - b|) [0, 1] [0, 40])).map
        (fun s => (s.centroids, s.assigned)) = some ([1, 0], [1, 0]) := by
  decide +kernel

/-- **C92**, Hamerly: for every motion that keeps distances, all samples and all initial centroids the
run on the moved data is the moved run: the centroids are moved, the assignment, the bounds, the sizes
and the loss are the same. -/
theorem C92_hamerly (L : V →ₗ[K] W) (v : W) (dist : V → V → K) (dist' : W → W → K)
    (h : ∀ a b, dist' (L a + v) (L b + v) = dist a b) (inf vmax lowest : K) (eq : K → K → Bool)
    (xs cs : List V) (n : Nat) :
    ((hamerlyInit inf vmax eq dist' (xs.map fun x => L x + v) (cs.map fun x => L x + v)).bind
        (runN (hamerlyStep inf lowest dist' (xs.map fun x => L x + v)) n)).map
        (fun s => (s.centroids, s.cached, s.near, s.sizes, s.loss)) =
      ((hamerlyInit inf vmax eq dist xs cs).bind (runN (hamerlyStep inf lowest dist xs) n)).map
        fun s => (s.centroids.map fun x => L x + v, s.cached, s.near, s.sizes, s.loss) := by
  rw [hamerlyInit_move h]
  cases h0 : hamerlyInit inf vmax eq dist xs cs with
  | none => rfl
  | some s0 =>
    have hlen : ∀ (m : Nat) (t : HState V K), runN (hamerlyStep inf lowest dist xs) m s0 = some t →
        t.sizes.length = t.sums.length := by
      intro m
      induction m with
      | zero =>
        intro t ht
        rw [← Option.some.inj ht]
        exact hamerlyInit_length h0
      | succ m ih =>
        intro t ht
        simp only [runN, Option.bind_eq_some_iff] at ht
        obtain ⟨u, hu, ht⟩ := ht
        exact hamerlyStep_length ht (ih u hu)
    simp only [Option.map_some, Option.bind_some]
    rw [runN_hom (step := hamerlyStep inf lowest dist xs) (HState.move L v) s0 n fun m _ t ht =>
      hamerlyStep_move h inf lowest xs t (hlen m t ht)]
    cases runN (hamerlyStep inf lowest dist xs) n s0 <;> rfl

/-- **C92**, k-means++: with the same outcomes of the generator the centroids drawn from the moved
samples are the moved centroids. -/
theorem C92_plus_plus (φ : V → W) (dist : V → V → K) (dist' : W → W → K)
    (h : ∀ a b, dist' (φ a) (φ b) = dist a b) (inf : K) (draw : Nat → List K → Option Nat)
    (first : Nat) (xs : List V) (k : Nat) :
    plusPlus inf dist' draw first (xs.map φ) k = (plusPlus inf dist draw first xs k).map (List.map φ) :=
  plusPlus_move h inf draw first xs k

end Motion

/-! ### `fit` on translated data -/

section Translate

variable {nf : Nat} {K : Type} [Field K] [LinearOrder K] [IsStrictOrderedRing K]

/-- The centroids as `fit` compares them: one flat container. -/
def flatRows (cs : List (Fin nf → K)) : List K := cs.flatMap List.ofFn

theorem flatRows_length (cs : List (Fin nf → K)) : (flatRows cs).length = cs.length * nf := by
  induction cs with
  | nil => simp [flatRows]
  | cons c cs ih =>
    simp only [flatRows, List.flatMap_cons, List.length_append, List.length_ofFn, List.length_cons] at *
    rw [ih, Nat.succ_mul, Nat.add_comm]

theorem zipWith_ofFn (f : K → K → Bool) (a b : Fin nf → K) :
    List.zipWith f (List.ofFn a) (List.ofFn b) = List.ofFn fun i => f (a i) (b i) := by
  apply List.ext_getElem (by simp)
  intro i h1 h2
  simp

theorem flatRows_zipWith (v : Fin nf → K) (tol : K) : ∀ a b : List (Fin nf → K),
    List.zipWith (fun x y => decide (|x - y| ≤ tol)) (flatRows (a.map (· + v))) (flatRows (b.map (· + v))) =
      List.zipWith (fun x y => decide (|x - y| ≤ tol)) (flatRows a) (flatRows b)
  | [], _ => by simp [flatRows]
  | _ :: _, [] => by simp [flatRows]
  | x :: a, y :: b => by
    have ih := flatRows_zipWith v tol a b
    simp only [flatRows] at ih
    simp only [flatRows, List.map_cons, List.flatMap_cons]
    rw [List.zipWith_append (by simp), List.zipWith_append (by simp), ih, zipWith_ofFn, zipWith_ofFn]
    congr 2
    funext i
    simp

theorem same_translate (v : Fin nf → K) (tol : K) (a b : List (Fin nf → K)) :
    containersEqual tol (flatRows (a.map (· + v))) (flatRows (b.map (· + v))) =
      containersEqual tol (flatRows a) (flatRows b) := by
  simp only [containersEqual, flatRows_zipWith, flatRows_length, List.length_map]

/-- **C92**, `KMeans<Hamerly>::fit`: for every tolerance and all options, with the same (moved) initial
centroids, stored or drawn, `fit` on the samples moved by `v` returns the centroids moved by `v`. -/
theorem C92_hamerly_fit (v : Fin nf → K) (dist : (Fin nf → K) → (Fin nf → K) → K)
    (h : ∀ a b, dist (a + v) (b + v) = dist a b) (inf vmax lowest tol : K) (eq : K → K → Bool)
    (xs : List (Fin nf → K)) (o : Options) (stored : List (Fin nf → K))
    (drawn : Nat → List (Fin nf → K)) :
    fit (hamerlyInit inf vmax eq dist (xs.map (· + v))) (hamerlyStep inf lowest dist (xs.map (· + v)))
        (·.centroids) (·.loss) (fun a b => containersEqual tol (flatRows a) (flatRows b)) List.isEmpty [] o
        (stored.map (· + v)) (fun i => (drawn i).map (· + v)) =
      (fit (hamerlyInit inf vmax eq dist xs) (hamerlyStep inf lowest dist xs)
        (·.centroids) (·.loss) (fun a b => containersEqual tol (flatRows a) (flatRows b)) List.isEmpty [] o
        stored drawn).map (List.map (· + v)) := by
  have h' : ∀ a b, dist ((LinearMap.id : (Fin nf → K) →ₗ[K] (Fin nf → K)) a + v)
      ((LinearMap.id : (Fin nf → K) →ₗ[K] (Fin nf → K)) b + v) = dist a b := h
  exact fit_hom (init' := hamerlyInit inf vmax eq dist (xs.map (· + v))) o
    (HState.move (LinearMap.id : (Fin nf → K) →ₗ[K] (Fin nf → K)) v) (List.map (· + v))
    (fun s => s.sizes.length = s.sums.length) (fun c => hamerlyInit_move h' inf vmax eq xs c)
    (fun c s hs => hamerlyInit_length hs) (fun s hs => hamerlyStep_move h' inf lowest xs s hs)
    (fun s s' hs e => hamerlyStep_length e hs) (fun s => rfl) (fun s => rfl)
    (fun a b => same_translate v tol a b) (fun c => by simp) [] stored drawn

end Translate

/-- **C92**, the labels: a sample gets the label that its image gets. -/
theorem C92_labels {V W K : Type} [LinearOrder K] (φ : V → W) (dist : V → V → K) (dist' : W → W → K)
    (h : ∀ a b, dist' (φ a) (φ b) = dist a b) (inf : K) (xs cs : List V) :
    nearestIndices inf dist' (xs.map φ) (cs.map φ) = nearestIndices inf dist xs cs :=
  nearestIndices_move h inf xs cs

/-! ### the hypotheses can be met -/

/-- Every linear map that keeps the sum of squares gives, with any translation, a motion for the
euclidean distance. -/
theorem motion_edist {nf : Nat} (L : (Fin nf → ℝ) →ₗ[ℝ] (Fin nf → ℝ)) (hL : ∀ a, sq (L a) 0 = sq a 0)
    (v : Fin nf → ℝ) (a b : Fin nf → ℝ) : edist (L a + v) (L b + v) = edist a b := by
  have h1 : ∀ x y : Fin nf → ℝ, sq x y = sq (x - y) 0 := by intro x y; simp [sq]
  have h2 : sq (L a + v) (L b + v) = sq a b := by
    rw [h1, add_sub_add_right_eq_sub, ← map_sub, hL, ← h1]
  have h3 : ∀ x y : Fin nf → ℝ, edist x y = Real.sqrt (sq x y) := fun x y => rfl
  rw [h3, h3, h2]

/-- The euclidean plane turned by a right angle and moved by `v`. -/
example (v a b : Fin 2 → ℝ) :
    edist ((![-a 1, a 0] : Fin 2 → ℝ) + v) ((![-b 1, b 0] : Fin 2 → ℝ) + v) = edist a b := by
  have := motion_edist (nf := 2)
    { toFun := fun x => ![-x 1, x 0]
      map_add' := by intro x y; funext i; fin_cases i <;> simp <;> ring
      map_smul' := by intro r x; funext i; fin_cases i <;> simp } (by
    intro x
    show sq ![-x 1, x 0] 0 = sq x 0
    simp only [sq, Fin.sum_univ_two]
    simp
    ring) v a b
  simpa using this

/-- Lloyd on the samples 0, 1, 10, 12 and on their mirror images moved by 7: two steps without an
empty cluster. -/
example :
    (runN (lloydStep (1000 : ℚ) (fun a b => |a - b|) [0, 1, 10, 12]) 2
      (lloydInit 1000 (fun a b => |a - b|) [0, 1, 10, 12] [0, 1])).map
        (fun s => (s.centroids, s.assigned)) = some ([1 / 2, 11], [0, 0, 1, 1]) ∧
    (runN (lloydStep (1000 : ℚ) (fun a b => |a - b|) [7, 6, -3, -5]) 2
      (lloydInit 1000 (fun a b => |a - b|) [7, 6, -3, -5] [7, 6])).map
        (fun s => (s.centroids, s.assigned)) = some ([13 / 2, -4], [0, 0, 1, 1]) ∧
    (∀ m : Fin 2, ∀ s ∈ runN (lloydStep (1000 : ℚ) (fun a b => |a - b|) [0, 1, 10, 12]) m
      (lloydInit 1000 (fun a b => |a - b|) [0, 1, 10, 12] [0, 1]),
      ∀ j : Fin s.centroids.length, j.val ∈ s.assigned) := by
  decide +kernel

/-- Hamerly on the same samples, with a centroid that keeps no sample. -/
example :
    ((hamerlyInit (1000 : ℚ) 1000 (fun a b => a == b) (fun a b => |a - b|) [0, 1, 10, 12] [0, 1, 50]).bind
      (runN (hamerlyStep 1000 (-1000) (fun a b => |a - b|) [0, 1, 10, 12]) 3)).map
        (fun s => (s.centroids, s.sizes)) = some ([1 / 2, 11, 50], [2, 2, 0]) ∧
    ((hamerlyInit (1000 : ℚ) 1000 (fun a b => a == b) (fun a b => |a - b|) [7, 6, -3, -5] [7, 6, -43]).bind
      (runN (hamerlyStep 1000 (-1000) (fun a b => |a - b|) [7, 6, -3, -5]) 3)).map
        (fun s => (s.centroids, s.sizes)) = some ([13 / 2, -4, -43], [2, 2, 0]) := by
  decide +kernel

end Verif.KMeans
