import Verif.Lemmas.KMeansOrder
import Verif.Spec.KMeans

/-
k-means does not depend on the order of the samples (C93).
-/

namespace Verif.KMeans

set_option linter.unusedSectionVars false

variable {V K : Type} [AddCommGroup V] [Field K] [LinearOrder K] [IsStrictOrderedRing K] [Module K V]

/-- States of Lloyd on the same samples in two orders. -/
def LloydSame (inf : K) (dist : V → V → K) (xs ys : List V) (s t : LState V K) : Prop :=
  s = lloydInit inf dist xs s.centroids ∧ t = lloydInit inf dist ys s.centroids

theorem lloydStep_order (inf : K) (dist : V → V → K) {xs ys : List V} (h : xs.Perm ys) (s t : LState V K)
    (hst : LloydSame inf dist xs ys s t) :
    Both (LloydSame inf dist xs ys) (lloydStep inf dist xs s) (lloydStep inf dist ys t) := by
  obtain ⟨hs, ht⟩ := hst
  have h1 : s.assigned = xs.map fun x => (nearestLoop dist x 0 s.centroids (0, inf)).1 := by
    conv_lhs => rw [hs]
    rfl
  have h2 : t.assigned = ys.map fun x => (nearestLoop dist x 0 s.centroids (0, inf)).1 := by
    rw [ht]; rfl
  have h3 : t.centroids = s.centroids := by rw [ht]; rfl
  unfold lloydStep
  rw [h1, h2, h3, ← clusterSizes_perm h, ← clusterSums_perm h]
  cases clusterSizes s.centroids.length (xs.map fun x => (nearestLoop dist x 0 s.centroids (0, inf)).1) with
  | none => exact Or.inl ⟨rfl, rfl⟩
  | some sizes =>
    cases clusterSums s.centroids.length xs
      (xs.map fun x => (nearestLoop dist x 0 s.centroids (0, inf)).1) with
    | none => exact Or.inl ⟨rfl, rfl⟩
    | some sums => exact Or.inr ⟨_, _, rfl, rfl, rfl, rfl⟩

theorem LloydSame.loss {inf : K} {dist : V → V → K} {xs ys : List V} (h : xs.Perm ys) {s t : LState V K}
    (hst : LloydSame inf dist xs ys s t) : t.loss = s.loss := by
  rw [hst.1, hst.2]
  exact (h.symm.map _).sum_eq

theorem LloydSame.centroids {inf : K} {dist : V → V → K} {xs ys : List V} {s t : LState V K}
    (hst : LloydSame inf dist xs ys s t) : t.centroids = s.centroids := by
  rw [hst.2]; rfl

theorem runN_rel {S S' : Type} {step : S → Option S} {step' : S' → Option S'} (R : S → S' → Prop)
    (h : ∀ s t, R s t → Both R (step s) (step' t)) : ∀ (n : Nat) (s : S) (t : S'), R s t →
    Both R (runN step n s) (runN step' n t)
  | 0, s, t, hst => Or.inr ⟨s, t, rfl, rfl, hst⟩
  | n + 1, s, t, hst => by
    rcases runN_rel R h n s t hst with ⟨e1, e2⟩ | ⟨s', t', e1, e2, h'⟩
    · left; simp only [runN, e1, e2]; exact ⟨rfl, rfl⟩
    · simp only [runN, e1, e2, Option.bind_some]
      exact h s' t' h'

/-- **C93**, Lloyd: after any number of steps centroids and loss are the same for the samples in any
other order. -/
theorem C93_lloyd (inf : K) (dist : V → V → K) {xs ys : List V} (h : xs.Perm ys) (cs : List V) (n : Nat) :
    (runN (lloydStep inf dist ys) n (lloydInit inf dist ys cs)).map (fun s => (s.centroids, s.loss)) =
      (runN (lloydStep inf dist xs) n (lloydInit inf dist xs cs)).map
        fun s => (s.centroids, s.loss) := by
  rcases runN_rel (LloydSame inf dist xs ys) (lloydStep_order inf dist h) n (lloydInit inf dist xs cs)
    (lloydInit inf dist ys cs) ⟨rfl, rfl⟩ with ⟨e1, e2⟩ | ⟨s, t, e1, e2, hst⟩
  · rw [e1, e2]
  · rw [e1, e2, Option.map_some, Option.map_some, hst.centroids, hst.loss h]

/-- **C93**, Hamerly: after any number of steps centroids, cluster sizes, position sums, neighbour
distances and loss are the same for the samples in any other order, and the entries of a sample are
the same wherever it stands. -/
theorem C93_hamerly (inf vmax lowest : K) (eq : K → K → Bool) (dist : V → V → K) {xs ys : List V}
    (h : xs.Perm ys) (cs : List V) (n : Nat) :
    let runX := (hamerlyInit inf vmax eq dist xs cs).bind (runN (hamerlyStep inf lowest dist xs) n)
    let runY := (hamerlyInit inf vmax eq dist ys cs).bind (runN (hamerlyStep inf lowest dist ys) n)
    (runX = none ∧ runY = none) ∨ ∃ s t, runX = some s ∧ runY = some t ∧
      (t.centroids, t.near, t.sizes, t.sums, t.loss) = (s.centroids, s.near, s.sizes, s.sums, s.loss) ∧
      ∃ F : V → Cached K, s.cached = xs.map F ∧ t.cached = ys.map F := by
  intro runX runY
  rcases hamerlyInit_order inf vmax eq dist h cs with ⟨e1, e2⟩ | ⟨s, t, e1, e2, hst⟩
  · left; simp only [runX, runY, e1, e2]; exact ⟨rfl, rfl⟩
  · simp only [runX, runY, e1, e2, Option.bind_some]
    rcases runN_rel (SameUpToOrder xs ys) (fun s t h' => hamerlyStep_order inf lowest dist h h') n s t hst
      with h' | ⟨s', t', e3, e4, h'⟩
    · exact Or.inl h'
    · obtain ⟨F, f1, f2, _⟩ := h'.cached
      refine Or.inr ⟨s', t', e3, e4, ?_, F, f1, f2⟩
      rw [h'.centroids, h'.near, h'.sizes, h'.sums, h'.loss]

/-- **C93**, `KMeans<Lloyd>::fit` returns the same centroids, for every test `same` of equality, all
options, stored and drawn centroids. -/
theorem C93_lloyd_fit (inf : K) (dist : V → V → K) {xs ys : List V} (h : xs.Perm ys)
    (same : List V → List V → Bool) (o : Options) (stored : List V) (drawn : Nat → List V) :
    fit (fun c => some (lloydInit inf dist ys c)) (lloydStep inf dist ys) (·.centroids) (·.loss) same
        List.isEmpty [] o stored drawn =
      fit (fun c => some (lloydInit inf dist xs c)) (lloydStep inf dist xs) (·.centroids) (·.loss) same
        List.isEmpty [] o stored drawn :=
  fit_rel o (LloydSame inf dist xs ys)
    (fun c => Or.inr ⟨lloydInit inf dist xs c, lloydInit inf dist ys c, rfl, rfl, rfl, rfl⟩)
    (lloydStep_order inf dist h) (fun _ _ hst => hst.centroids) (fun _ _ hst => hst.loss h) [] stored drawn

/-- **C93**, `KMeans<Hamerly>::fit`. -/
theorem C93_hamerly_fit (inf vmax lowest : K) (eq : K → K → Bool) (dist : V → V → K) {xs ys : List V}
    (h : xs.Perm ys) (same : List V → List V → Bool) (o : Options) (stored : List V)
    (drawn : Nat → List V) :
    fit (hamerlyInit inf vmax eq dist ys) (hamerlyStep inf lowest dist ys) (·.centroids) (·.loss) same
        List.isEmpty [] o stored drawn =
      fit (hamerlyInit inf vmax eq dist xs) (hamerlyStep inf lowest dist xs) (·.centroids) (·.loss) same
        List.isEmpty [] o stored drawn :=
  fit_rel o (SameUpToOrder xs ys) (fun c => hamerlyInit_order inf vmax eq dist h c)
    (fun _ _ h' => hamerlyStep_order inf lowest dist h h') (fun _ _ hst => hst.centroids)
    (fun _ _ hst => hst.loss) [] stored drawn

/-- **C93**, the labels of `predict`: each sample gets the same label wherever it stands. -/
theorem C93_labels (inf : K) (dist : V → V → K) {xs ys : List V} (h : xs.Perm ys) (cs : List V) :
    (xs.zip (nearestIndices inf dist xs cs)).Perm (ys.zip (nearestIndices inf dist ys cs)) := by
  simp only [nearestIndices, zip_map_self]
  exact h.map _

/-- Ties and an empty cluster: the samples 0, 1, 2, 10 with centroids 0, 2, 50 in two orders. -/
example :
    (runN (lloydStep (1000 : ℚ) (fun a b => |a - b|) [0, 1, 2, 10]) 2
      (lloydInit 1000 (fun a b => |a - b|) [0, 1, 2, 10] [0, 2, 50])).map (fun s => (s.centroids, s.loss)) =
      some ([3 / 2, 10, 0], 1) ∧
    (runN (lloydStep (1000 : ℚ) (fun a b => |a - b|) [10, 2, 0, 1]) 2
      (lloydInit 1000 (fun a b => |a - b|) [10, 2, 0, 1] [0, 2, 50])).map (fun s => (s.centroids, s.loss)) =
      some ([3 / 2, 10, 0], 1) := by
  decide +kernel

end Verif.KMeans
