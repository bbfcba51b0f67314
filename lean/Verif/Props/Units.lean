import Verif.Lemmas.Embed
import Verif.Model.Statistics
import Verif.Lemmas.Distances
import Mathlib.Tactic.Linarith
import Mathlib.Tactic.NormNum
import Mathlib.Algebra.Order.Field.Rat

/-
C111: a change of units.  A k-d tree only compares coordinates, so a strictly increasing conversion of
the coordinates gives the same tree, and when the distances are converted along, the same neighbours.
-/

namespace Verif.Units

open Verif.KDTree Verif.Buffer Verif.Search Verif.Sorting

section Tree

variable {K K' : Type} [LinearOrder K] [LinearOrder K']

/-- The first sample replaces the limits the bounds start from. -/
theorem tightStep_first (x : Nat → Nat → K) (nf : Nat) (vmax vlowest : K) (i : Nat)
    (h : ∀ a, a < nf → vlowest ≤ x i a ∧ x i a ≤ vmax) :
    tightStep x (List.replicate nf (vmax, vlowest)) i = (List.range nf).map (fun a => (x i a, x i a)) := by
  apply List.ext_getElem
  · simp [tightStep]
  · intro a h1 h2
    have ha : a < nf := by simpa [tightStep] using h1
    obtain ⟨l, u⟩ := h a ha
    simp only [tightStep, List.getElem_mapIdx, List.getElem_replicate, List.getElem_map,
      List.getElem_range]
    rcases lt_or_eq_of_le u with u | u
    · rcases lt_or_eq_of_le l with l | l <;> simp [u, l]
    · rcases lt_or_eq_of_le l with l | l
      · rw [u] at l
        simp [u, l]
      · simp [← u, l]

/-- The bounds of a non-empty data set do not depend on the limits. -/
theorem tightBound_limits (x : Nat → Nat → K) (nf : Nat) (vmax vlowest vmax' vlowest' : K) (idx : List Nat)
    (hne : idx ≠ []) (h : ∀ i ∈ idx, ∀ a, a < nf → vlowest ≤ x i a ∧ x i a ≤ vmax)
    (h' : ∀ i ∈ idx, ∀ a, a < nf → vlowest' ≤ x i a ∧ x i a ≤ vmax') :
    tightBound x nf vmax vlowest idx = tightBound x nf vmax' vlowest' idx := by
  cases idx with
  | nil => exact absurd rfl hne
  | cons i l =>
    simp only [tightBound, List.foldl_cons]
    rw [tightStep_first x nf vmax vlowest i (h i (by simp)),
      tightStep_first x nf vmax' vlowest' i (h' i (by simp))]

variable {emb : K → K'}

theorem alike_exact (hlt : ∀ a b, emb a < emb b ↔ a < b) : Alike emb eqExact eqExact := by
  refine ⟨hlt, fun a b => ?_⟩
  have hinj : emb a = emb b ↔ a = b := by
    constructor
    · intro h
      have h1 := (hlt a b).not
      have h2 := (hlt b a).not
      rw [h] at h1 h2
      exact le_antisymm (not_lt.1 (h2.1 (lt_irrefl _))) (not_lt.1 (h1.1 (lt_irrefl _)))
    · rintro rfl; rfl
  simp [eqExact, hinj]

/-- **C111.** Any strictly increasing conversion of the coordinates (another unit, a wider type, a
logarithm) gives the same order of the indices and the same tree, with the bounds converted.  The limits
are those of the two types, the axis policies choose the same axes, and the equality of the values is
exact (integral data). -/
theorem C111_tree (hlt : ∀ a b, emb a < emb b ↔ a < b) (x : Nat → Nat → K)
    (policy : List Nat → Nat → Box K → Nat) (policy' : List Nat → Nat → Box K' → Nat)
    (hpol : ∀ idx d b, policy' idx d (mapBox emb b) = policy idx d b)
    (bucketSize maxDepth nf : Nat) (vmax vlowest : K) (vmax' vlowest' : K') (idx : List Nat)
    (hne : idx ≠ []) (h : ∀ i ∈ idx, ∀ a, a < nf → vlowest ≤ x i a ∧ x i a ≤ vmax)
    (h' : ∀ i ∈ idx, ∀ a, a < nf → vlowest' ≤ emb (x i a) ∧ emb (x i a) ≤ vmax') :
    make eqExact (fun i a => emb (x i a)) policy' bucketSize maxDepth nf vmax' vlowest' idx =
      (make eqExact x policy bucketSize maxDepth nf vmax vlowest idx).map
        (fun r => (r.1, mapTree emb r.2)) := by
  have hle : ∀ a b, emb a ≤ emb b ↔ a ≤ b := fun a b => by
    rw [← not_lt, ← not_lt, hlt]
  have e1 := tightBound_limits (fun i a => emb (x i a)) nf vmax' vlowest' (emb vmax) (emb vlowest) idx hne
    h' (fun i hi a ha => ⟨(hle ..).2 (h i hi a ha).1, (hle ..).2 (h i hi a ha).2⟩)
  have e2 := make_alike (alike_exact hlt) x policy' bucketSize maxDepth nf vmax vlowest idx
  simp only [hpol] at e2
  rw [← e2]
  simp only [make, e1]

variable {D D' : Type} [LinearOrder D] [LinearOrder D']

/-- A k-nearest-neighbour search (`radius = none`) or a radius search on a new tree. -/
def query {K D : Type} [LinearOrder K] [LinearOrder D] (policy : List Nat → Nat → Box K → Nat)
    (bucketSize maxDepth nf : Nat) (vmax vlowest : K) (gap : K → K → D)
    (dist : (Nat → K) → (Nat → K) → D) (inf : D) (x : Nat → Nat → K) (idx : List Nat) (q : Nat → K)
    (capacity : Nat) (radius : Option D) : Option (List Nat × List D) := do
  let (_, t) ← make eqExact x policy bucketSize maxDepth nf vmax vlowest idx
  let cand := match radius with
    | none => candAll (fun i => dist (x i) q)
    | some r => candBall (fun i => dist (x i) q) r
  let b ← search x q (staticOps x q gap cand) t (Buffer.mk inf capacity)
  some (b.indices, b.distances)

/-- **C111.** Searches: the same indices in the same order, with the distances converted, when the
conversion `ed` of the distances is strictly increasing and follows the conversion of the coordinates. -/
theorem C111_search (hlt : ∀ a b, emb a < emb b ↔ a < b) {ed : D → D'}
    (hdlt : ∀ a b, ed a < ed b ↔ a < b) (x : Nat → Nat → K)
    (policy : List Nat → Nat → Box K → Nat) (policy' : List Nat → Nat → Box K' → Nat)
    (hpol : ∀ idx d b, policy' idx d (mapBox emb b) = policy idx d b)
    (bucketSize maxDepth nf : Nat) (vmax vlowest : K) (vmax' vlowest' : K')
    (gap : K → K → D) (gap' : K' → K' → D') (hgap : ∀ a b, gap' (emb a) (emb b) = ed (gap a b))
    (dist : (Nat → K) → (Nat → K) → D) (dist' : (Nat → K') → (Nat → K') → D')
    (hdist : ∀ u v, dist' (fun a => emb (u a)) (fun a => emb (v a)) = ed (dist u v))
    (inf : D) (inf' : D') (hinf : ed inf = inf') (idx : List Nat)
    (hne : idx ≠ []) (h : ∀ i ∈ idx, ∀ a, a < nf → vlowest ≤ x i a ∧ x i a ≤ vmax)
    (h' : ∀ i ∈ idx, ∀ a, a < nf → vlowest' ≤ emb (x i a) ∧ emb (x i a) ≤ vmax')
    (q : Nat → K) (capacity : Nat) (radius : Option D) :
    query policy' bucketSize maxDepth nf vmax' vlowest' gap' dist' inf' (fun i a => emb (x i a)) idx
        (fun a => emb (q a)) capacity (radius.map ed) =
      (query policy bucketSize maxDepth nf vmax vlowest gap dist inf x idx q capacity radius).map
        (fun r => (r.1, r.2.map ed)) := by
  have hdle : ∀ a b, ed a ≤ ed b ↔ a ≤ b := fun a b => by
    rw [← not_lt, ← not_lt, hdlt]
  subst hinf
  unfold query
  rw [C111_tree hlt x policy policy' hpol bucketSize maxDepth nf vmax vlowest vmax' vlowest' idx hne h h']
  cases make eqExact x policy bucketSize maxDepth nf vmax vlowest idx with
  | none => rfl
  | some r =>
    obtain ⟨idx', t⟩ := r
    simp only [Option.map_some, Option.bind_eq_bind, Option.bind_some]
    cases radius with
    | none =>
      simp only [Option.map_none]
      have e := search_alike (emb := emb) (ed := ed) hlt hdlt hdle x q (gap := gap) (gap' := gap')
        (fun p a => hgap _ _) (cand := candAll (fun i => dist (x i) q))
        (cand' := candAll (fun i => dist' (fun a => emb (x i a)) (fun a => emb (q a))))
        (fun i => by simp [candAll, hdist]) t (Buffer.mk inf capacity)
      rw [show mapBuf ed (Buffer.mk inf capacity) = Buffer.mk (ed inf) capacity from rfl] at e
      rw [e]
      cases search x q (staticOps x q gap (candAll fun i => dist (x i) q)) t
        (Buffer.mk inf capacity) <;> rfl
    | some r =>
      simp only [Option.map_some]
      have e := search_alike (emb := emb) (ed := ed) hlt hdlt hdle x q (gap := gap) (gap' := gap')
        (fun p a => hgap _ _) (cand := candBall (fun i => dist (x i) q) r)
        (cand' := candBall (fun i => dist' (fun a => emb (x i a)) (fun a => emb (q a))) (ed r))
        (fun i => by
          simp only [candBall, hdist, hdlt]
          split <;> rfl) t (Buffer.mk inf capacity)
      rw [show mapBuf ed (Buffer.mk inf capacity) = Buffer.mk (ed inf) capacity from rfl] at e
      rw [e]
      cases search x q (staticOps x q gap (candBall (fun i => dist (x i) q) r)) t
        (Buffer.mk inf capacity) <;> rfl

end Tree

/-! ### A positive factor on integral data -/

/-- The Manhattan distance of two samples, the default for integral data. -/
def manhattanOf (nf : Nat) (u v : Nat → ℤ) : ℤ := ((List.range nf).map (fun a => |u a - v a|)).sum

theorem manhattanOf_eq (nf : Nat) (u v : Nat → ℤ) :
    Distances.manhattan ((List.range nf).map u) ((List.range nf).map v) = some (manhattanOf nf u v) := by
  rw [Distances.manhattan_eq (by simp)]
  simp only [manhattanOf]
  congr 2
  rw [List.zipWith_map]
  simp [List.zipWith_self]

theorem manhattanOf_mul (nf : Nat) (s : ℤ) (hs : 0 < s) (u v : Nat → ℤ) :
    manhattanOf nf (fun a => s * u a) (fun a => s * v a) = s * manhattanOf nf u v := by
  unfold manhattanOf
  rw [← List.sum_map_mul_left]
  congr 1
  apply List.map_congr_left
  intro a _
  rw [← mul_sub, abs_mul, abs_of_pos hs]

/-- **C111.** Integral data, Manhattan distance: multiplying all coordinates, the query and the radius by
a positive integer gives the same indices in the same order, and the distances multiplied.
(`common::infinity` is 0 for an integral type; coordinates and distances stay in the range of the
type.) -/
theorem C111_factor (s : ℤ) (hs : 0 < s) (x : Nat → Nat → ℤ)
    (policy policy' : List Nat → Nat → Box ℤ → Nat)
    (hpol : ∀ idx d b, policy' idx d (mapBox (s * ·) b) = policy idx d b)
    (bucketSize maxDepth nf : Nat) (vmax vlowest : ℤ) (idx : List Nat)
    (hne : idx ≠ []) (h : ∀ i ∈ idx, ∀ a, a < nf → vlowest ≤ x i a ∧ x i a ≤ vmax)
    (h' : ∀ i ∈ idx, ∀ a, a < nf → vlowest ≤ s * x i a ∧ s * x i a ≤ vmax)
    (q : Nat → ℤ) (capacity : Nat) (radius : Option ℤ) :
    query policy' bucketSize maxDepth nf vmax vlowest (fun a b => |a - b|) (manhattanOf nf) 0
        (fun i a => s * x i a) idx (fun a => s * q a) capacity (radius.map (s * ·)) =
      (query policy bucketSize maxDepth nf vmax vlowest (fun a b => |a - b|) (manhattanOf nf) 0 x idx q
        capacity radius).map (fun r => (r.1, r.2.map (s * ·))) :=
  C111_search (emb := (s * ·)) (ed := (s * ·)) (fun _ _ => mul_lt_mul_iff_right₀ hs)
    (fun _ _ => mul_lt_mul_iff_right₀ hs) x policy policy' hpol bucketSize maxDepth nf vmax vlowest vmax
    vlowest _ _ (fun a b => by rw [← mul_sub, abs_mul, abs_of_pos hs]) _ _
    (fun u v => manhattanOf_mul nf s hs u v) 0 0 (mul_zero s) idx hne h h' q capacity radius

/-- **C111.** The axis policies: cycling through the axes does not look at the bounds. -/
theorem C111_cycle {K K' : Type} (emb : K → K') (mask : List Nat) (nf : Nat) (d : Nat) (b : Box K) :
    (fun (_ : Box K') => (Stats.cycleAxis mask nf d).getD 0) (mapBox emb b) =
      (Stats.cycleAxis mask nf d).getD 0 := rfl

/-- **C111.** The longest axis stays the longest under a positive factor. -/
theorem C111_spread {F : Type} [Field F] [LinearOrder F] [IsStrictOrderedRing F] (s : F) (hs : 0 < s)
    (b : Box F) : Stats.longestAxis (mapBox (s * ·) b) = Stats.longestAxis b := by
  have key : ∀ (l : List (F × F)) (pos bp : Nat) (v : F × F),
      (Stats.bestLoop (fun a b => decide (|b.1 - b.2| < |a.1 - a.2|)) (mapBox (s * ·) l) pos bp
        (s * v.1, s * v.2)).1 =
      (Stats.bestLoop (fun a b => decide (|b.1 - b.2| < |a.1 - a.2|)) l pos bp v).1 := by
    intro l
    induction l with
    | nil => intro pos bp v; rfl
    | cons a l ih =>
      intro pos bp v
      simp only [mapBox, List.map_cons, Stats.bestLoop, ← mul_sub, abs_mul, abs_of_pos hs,
        mul_lt_mul_iff_right₀ hs]
      split
      · exact ih ..
      · exact ih ..
  cases b with
  | nil => rfl
  | cons a l =>
    simp only [Stats.longestAxis, Stats.best, mapBox, List.map_cons, Option.map_some]
    congr 1
    exact key l 1 0 a

/-- **C111.** Floating data: the comparison with an absolute tolerance does not follow the units; two
samples `0.1` apart at a tolerance of `0.2` make another tree when all values are multiplied by 10. -/
theorem C111_tolerance_counterexample :
    (make (eqEps (1 / 5 : ℚ)) (fun i _ => if i = 0 then 1 else 9 / 10) (fun _ _ _ => 0) 1 5 1 100 (-100)
        [0, 1]).map (·.1) ≠
      (make (eqEps (1 / 5 : ℚ)) (fun i _ => 10 * if i = 0 then 1 else 9 / 10) (fun _ _ _ => 0) 1 5 1 100
        (-100) [0, 1]).map (·.1) := by
  decide +kernel

/-! Non-vacuity: five samples of two features, in another unit. -/

/-- Example data. -/
def ex (i a : Nat) : ℤ := if a = 0 then (i : ℤ) * 7 % 5 else (i : ℤ) * 3 % 4

example : (∀ i ∈ [0, 1, 2, 3, 4], ∀ a, a < 2 → (-100 : ℤ) ≤ ex i a ∧ ex i a ≤ 100) ∧
    (∀ i ∈ [0, 1, 2, 3, 4], ∀ a, a < 2 → (-100 : ℤ) ≤ 10 * ex i a ∧ 10 * ex i a ≤ 100) := by
  decide +kernel

example : query (fun _ d _ => d % 2) 1 5 2 100 (-100) (fun a b => |a - b|) (manhattanOf 2) 0
      (fun i a => 10 * ex i a) [0, 1, 2, 3, 4] (fun _ => 10) 2 none =
    (query (fun _ d _ => d % 2) 1 5 2 100 (-100) (fun a b => |a - b|) (manhattanOf 2) 0 ex
      [0, 1, 2, 3, 4] (fun _ => 1) 2 none).map (fun r => (r.1, r.2.map (10 * ·))) ∧
    query (fun _ d _ => d % 2) 1 5 2 100 (-100) (fun a b => |a - b|) (manhattanOf 2) 0 ex
      [0, 1, 2, 3, 4] (fun _ => 1) 2 none = some ([3, 0], [0, 2]) := by
  decide +kernel

end Verif.Units
