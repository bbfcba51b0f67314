import Verif.Model.Bounds
import Verif.Props.Distances
import Mathlib.Algebra.Order.Floor.Ring
import Mathlib.Algebra.Order.Archimedean.Real.Basic
import Mathlib.Tactic.Linarith
import Mathlib.Tactic.NormNum

/-
Properties C21, C22 (segments), C63, C67, C68: segments, boxes and balls.
-/

namespace Verif.Bounds

open Verif.Distances

set_option linter.unusedSectionVars false

/-- Specification: the value is between the bounds of the segment. -/
def InSeg {K : Type} [LinearOrder K] (s : Seg K) (v : K) : Prop := s.lower ≤ v ∧ v ≤ s.upper

/-- Specification: the point has one coordinate per segment and each is inside. -/
def InBox {K : Type} [LinearOrder K] (b : List (Seg K)) (p : List K) : Prop :=
  List.Forall₂ InSeg b p

/-! ### C21: minimum distances -/

section Segments

variable {K : Type} [Ring K] [LinearOrder K] [IsStrictOrderedRing K]

/-- **C21**, segments: `min_distance` never exceeds the distance of two values inside, and two values
inside attain it (unless a segment is empty). -/
theorem C21_segments (a b : Seg K) :
    (∀ v w, InSeg a v → InSeg b w → segMinDist a b ≤ |v - w|) ∧
    (a.lower ≤ a.upper → b.lower ≤ b.upper → ∃ v w, InSeg a v ∧ InSeg b w ∧ segMinDist a b = |v - w|) ∧
    0 ≤ segMinDist a b := by
  unfold segMinDist InSeg
  split
  · rename_i h
    refine ⟨?_, ?_, (sub_pos.2 h).le⟩
    · rintro v w ⟨_, h1⟩ ⟨h2, _⟩
      rw [abs_sub_comm]
      exact le_trans (sub_le_sub h2 h1) (le_abs_self _)
    · intro ha hb
      refine ⟨a.upper, b.lower, ⟨ha, le_refl _⟩, ⟨le_refl _, hb⟩, ?_⟩
      rw [abs_sub_comm, abs_of_pos (sub_pos.2 h)]
  · rename_i h
    split
    · rename_i h'
      refine ⟨?_, ?_, (sub_pos.2 h').le⟩
      · rintro v w ⟨h1, _⟩ ⟨_, h2⟩
        exact le_trans (sub_le_sub h1 h2) (le_abs_self _)
      · intro ha hb
        refine ⟨a.lower, b.upper, ⟨le_refl _, ha⟩, ⟨hb, le_refl _⟩, ?_⟩
        rw [abs_of_pos (sub_pos.2 h')]
    · rename_i h'
      refine ⟨fun v w _ _ => abs_nonneg _, ?_, le_refl _⟩
      intro ha hb
      refine ⟨max a.lower b.lower, max a.lower b.lower, ⟨le_max_left _ _, ?_⟩,
        ⟨le_max_right _ _, ?_⟩, by simp⟩
      · exact max_le ha (not_lt.1 h)
      · exact max_le (not_lt.1 h') hb

theorem boxSqDist_spec : ∀ (a b : List (Seg K)), a.length = b.length →
    ∃ s, boxSqDist a b = some s ∧ 0 ≤ s ∧
      (∀ p q, InBox a p → InBox b q →
        s ≤ (List.zipWith (fun u v => (u - v) * (u - v)) p q).sum) ∧
      ((∀ t ∈ a ++ b, t.lower ≤ t.upper) → ∃ p q, InBox a p ∧ InBox b q ∧
        s = (List.zipWith (fun u v => (u - v) * (u - v)) p q).sum) := by
  intro a
  induction a with
  | nil =>
    intro b hb
    cases b with
    | nil => exact ⟨0, rfl, le_refl _, fun p q hp hq => by cases hp; simp,
        fun _ => ⟨[], [], .nil, .nil, by simp⟩⟩
    | cons _ _ => simp at hb
  | cons x a ih =>
    intro b hb
    cases b with
    | nil => simp at hb
    | cons y b =>
      obtain ⟨s, e, h0, h1, h2⟩ := ih b (by simpa using hb)
      obtain ⟨g1, g2, g3⟩ := C21_segments x y
      refine ⟨segMinDist x y * segMinDist x y + s, by simp [boxSqDist, e],
        add_nonneg (mul_self_nonneg _) h0, ?_, ?_⟩
      · intro p q hp hq
        cases hp with
        | cons hp1 hp2 =>
          cases hq with
          | cons hq1 hq2 =>
            rw [List.zipWith_cons_cons, List.sum_cons]
            refine add_le_add ?_ (h1 _ _ hp2 hq2)
            rw [← abs_mul_abs_self (_ - _)]
            exact mul_self_le_mul_self g3 (g1 _ _ hp1 hq1)
      · intro hne
        obtain ⟨p, q, hp, hq, e2⟩ := h2 (fun t ht => hne t (by
          rcases List.mem_append.1 ht with h | h <;> simp [h]))
        obtain ⟨v, w, hv, hw, e3⟩ := g2 (hne x (by simp)) (hne y (by simp))
        refine ⟨v :: p, w :: q, .cons hv hp, .cons hw hq, ?_⟩
        rw [List.zipWith_cons_cons, List.sum_cons, e2, e3, abs_mul_abs_self]

end Segments

theorem InBox.length_eq {K : Type} [LinearOrder K] {b : List (Seg K)} {p : List K} (h : InBox b p) :
    b.length = p.length := List.Forall₂.length_eq h

/-- **C21**, boxes of floating values: `min_distance` never exceeds the Euclidean distance of two
points inside, and if no segment is empty two points inside attain it. -/
theorem C21_boxes (a b : List (Seg ℝ)) (hl : a.length = b.length) :
    ∃ m, boxMinDist a b = some m ∧
      (∀ p q v, InBox a p → InBox b q → euclidean p q = some v → m ≤ v) ∧
      ((∀ t ∈ a ++ b, t.lower ≤ t.upper) →
        ∃ p q, InBox a p ∧ InBox b q ∧ euclidean p q = some m) := by
  obtain ⟨s, e, h0, h1, h2⟩ := boxSqDist_spec a b hl
  refine ⟨Real.sqrt s, by simp [boxMinDist, e], ?_, ?_⟩
  · intro p q v hp hq hv
    rw [euclidean_eq (by rw [← hp.length_eq, ← hq.length_eq]; exact hl.le)] at hv
    rw [← Option.some.inj hv]
    exact Real.sqrt_le_sqrt (h1 p q hp hq)
  · intro hne
    obtain ⟨p, q, hp, hq, e2⟩ := h2 hne
    refine ⟨p, q, hp, hq, ?_⟩
    rw [euclidean_eq (by rw [← hp.length_eq, ← hq.length_eq]; exact hl.le), e2]

theorem sum_sq_le_sq_sum : ∀ p q : List ℤ,
    (List.zipWith (fun u v => (u - v) * (u - v)) p q).sum ≤
      (List.zipWith (fun u v => |u - v|) p q).sum * (List.zipWith (fun u v => |u - v|) p q).sum := by
  intro p
  induction p with
  | nil => intro q; simp
  | cons a p ih =>
    intro q
    cases q with
    | nil => simp
    | cons b q =>
      simp only [List.zipWith_cons_cons, List.sum_cons]
      have h1 := ih q
      have h2 : 0 ≤ (List.zipWith (fun u v : ℤ => |u - v|) p q).sum :=
        sum_zipWith_nonneg _ (fun _ _ => abs_nonneg _) _ _
      have h3 := abs_mul_abs_self (a - b)
      have h4 : 0 ≤ |a - b| := abs_nonneg _
      nlinarith [mul_nonneg h4 h2]

/-- **C21**, boxes of integral values: `min_distance` (the square root of the integer sum) never
exceeds the Manhattan distance, which is what the library uses for integral points. -/
theorem C21_boxes_int (a b : List (Seg ℤ)) (hl : a.length = b.length) :
    ∃ m, boxMinDistInt a b = some m ∧
      (∀ p q v, InBox a p → InBox b q → manhattan p q = some v → m ≤ (v : ℝ)) := by
  obtain ⟨s, e, h0, h1, _⟩ := boxSqDist_spec a b hl
  refine ⟨Real.sqrt s, by simp [boxMinDistInt, e], ?_⟩
  intro p q v hp hq hv
  rw [manhattan_eq (by rw [← hp.length_eq, ← hq.length_eq]; exact hl.le)] at hv
  have hv' := Option.some.inj hv
  have h3 : s ≤ v * v := by
    rw [← hv']; exact (h1 p q hp hq).trans (sum_sq_le_sq_sum p q)
  have h4 : 0 ≤ v := by rw [← hv']; exact sum_zipWith_nonneg _ (fun _ _ => abs_nonneg _) _ _
  rw [Real.sqrt_le_iff]
  refine ⟨by exact_mod_cast h4, ?_⟩
  rw [sq]
  exact_mod_cast h3

/-- **C21**, balls: for every distance of the library, `min_distance` never exceeds the distance of
two points inside, and is not negative. -/
theorem C21_balls {K : Type} [Ring K] [LinearOrder K] [IsStrictOrderedRing K]
    {d : List K → List K → Option K} {coord : K → K → K} (hm : IsMetric d coord) (a b : Ball K)
    (hl : a.centre.length = b.centre.length) :
    ∃ m, ballMinDist d a b = some m ∧ 0 ≤ m ∧
      ∀ p q v, p.length = a.centre.length → q.length = a.centre.length →
        a.contains d p = some true → b.contains d q = some true → d p q = some v → m ≤ v := by
  obtain ⟨c, hc, _, _⟩ := hm.defined a.centre b.centre hl
  refine ⟨max 0 (c - (a.radius + b.radius)), by simp [ballMinDist, hc], le_max_left _ _, ?_⟩
  intro p q v hp hq ha hb hv
  obtain ⟨u1, hu1, _, _⟩ := hm.defined p a.centre hp
  obtain ⟨u2, hu2, _, _⟩ := hm.defined q b.centre (hq.trans hl)
  obtain ⟨v', hv', h0, _⟩ := hm.defined p q (hp.trans hq.symm)
  rw [hv] at hv'
  have := Option.some.inj hv'
  subst this
  simp only [Ball.contains, hu1, hu2, Option.map_some, Option.some.injEq, decide_eq_true_eq] at ha hb
  obtain ⟨w, hw, _, _⟩ := hm.defined p b.centre (hp.trans hl)
  have hs := hm.symm p a.centre hp
  rw [hu1] at hs
  have t1 := hm.triangle a.centre p b.centre hp.symm (hp.trans hl) c u1 w hc hs.symm hw
  have t2 := hm.triangle p q b.centre (hp.trans hq.symm) (hq.trans hl) w v u2 hw hv hu2
  refine max_le h0 ?_
  rw [sub_le_iff_le_add]
  calc c ≤ u1 + w := t1
    _ ≤ u1 + (v + u2) := by gcongr
    _ ≤ a.radius + (v + b.radius) := by gcongr
    _ = v + (a.radius + b.radius) := by abel

/-! ### C63: centres of integer segments -/

/-- The documented meaning of left rounding: the largest integer not above the midpoint. -/
def IsFloorMid (lower upper c : ℤ) : Prop := 2 * c ≤ lower + upper ∧ lower + upper < 2 * (c + 1)

/-- **C63**, part that holds: when the sum of the bounds is not a negative even number the centre is
the largest integer not above the midpoint and lies in the segment.  For all bounds the centre is not
above the midpoint and at most one too low, and the size covers the segment: every value inside is
at distance less than the size from the centre.  What is missing: negative even sums
(`C63_counterexample`). -/
theorem C63_centre_partial (lower upper : ℤ) (h : lower ≤ upper) :
    ((0 ≤ lower + upper ∨ (lower + upper) % 2 = 1) →
      IsFloorMid lower upper (centerInt lower upper) ∧
      lower ≤ centerInt lower upper ∧ centerInt lower upper ≤ upper) ∧
    2 * centerInt lower upper ≤ lower + upper ∧ lower + upper ≤ 2 * (centerInt lower upper + 1) ∧
    ∀ v, lower ≤ v → v ≤ upper → |v - centerInt lower upper| < sizeInt lower upper := by
  have key : 2 * centerInt lower upper ≤ lower + upper ∧
      lower + upper ≤ 2 * (centerInt lower upper + 1) ∧
      ((0 ≤ lower + upper ∨ (lower + upper) % 2 = 1) →
        lower + upper < 2 * (centerInt lower upper + 1)) := by
    unfold centerInt
    split
    · have : (lower + upper).tdiv 2 = -((-(lower + upper)) / 2) := by
        rw [← Int.tdiv_eq_ediv_of_nonneg (by omega), Int.neg_tdiv]; omega
      rw [this]; omega
    · rw [Int.tdiv_eq_ediv_of_nonneg (by omega)]; omega
  obtain ⟨h1, h2, h3⟩ := key
  refine ⟨fun hh => ⟨⟨h1, h3 hh⟩, ?_, ?_⟩, h1, h2, ?_⟩
  · have := h3 hh; omega
  · omega
  · intro v hv1 hv2
    unfold sizeInt
    rw [abs_lt]
    omega

/-- **C63** is false for negative even sums: the centre of the segment from -2 to -2 is -3. -/
theorem C63_counterexample :
    centerInt (-2) (-2) = -3 ∧ ¬ IsFloorMid (-2) (-2) (centerInt (-2) (-2)) ∧
      (Seg.mk (-2 : ℤ) (-2)).contains (centerInt (-2) (-2)) = false := by
  refine ⟨by decide, ?_, by decide⟩
  unfold IsFloorMid
  decide

/-! ### C22: segments contain their bounds and centre -/

theorem contains_iff {K : Type} [LinearOrder K] (s : Seg K) (v : K) :
    s.contains v = true ↔ InSeg s v := by
  unfold Seg.contains InSeg
  simp

/-- **C22**, `LowerBoundAndUpperBound`: `contains_value` is membership in the closed interval; a
non-empty segment contains its bounds; it contains its centre when the values are floating or the sum
of the bounds is not a negative even integer. -/
theorem C22_segment_partial {K : Type} [LinearOrder K] (s : Seg K) (h : s.lower ≤ s.upper) :
    (∀ v, s.contains v = true ↔ s.lower ≤ v ∧ v ≤ s.upper) ∧
    s.contains s.lower = true ∧ s.contains s.upper = true := by
  refine ⟨fun v => contains_iff s v, ?_, ?_⟩
  · exact (contains_iff s _).2 ⟨le_refl _, h⟩
  · exact (contains_iff s _).2 ⟨h, le_refl _⟩

theorem C22_segment_centre_float (s : Seg ℝ) (h : s.lower ≤ s.upper) :
    s.contains (centerReal s.lower s.upper) = true := by
  rw [contains_iff]
  unfold InSeg centerReal
  constructor <;> linarith

theorem C22_segment_centre_int (s : Seg ℤ) (h : s.lower ≤ s.upper)
    (hs : 0 ≤ s.lower + s.upper ∨ (s.lower + s.upper) % 2 = 1) :
    s.contains (centerInt s.lower s.upper) = true := by
  rw [contains_iff]
  exact ((C63_centre_partial s.lower s.upper h).1 hs).2

/-- **C22**, `LowerBoundAndLength` with floating values. -/
theorem C22_segment_length_float (s : SegLen ℝ) (h : 0 ≤ s.length) :
    (∀ v, s.containsReal v = true ↔ s.lower ≤ v ∧ v ≤ s.upper) ∧
    s.containsReal s.lower = true ∧ s.containsReal s.upper = true ∧
    s.containsReal s.centroidReal = true := by
  have key : ∀ v, s.containsReal v = true ↔ s.lower ≤ v ∧ v ≤ s.upper := by
    intro v
    unfold SegLen.containsReal SegLen.lower SegLen.upper
    simp
  refine ⟨key, ?_, ?_, ?_⟩
  · rw [key]; unfold SegLen.lower SegLen.upper; constructor <;> linarith
  · rw [key]; unfold SegLen.lower SegLen.upper; constructor <;> linarith
  · rw [key]; unfold SegLen.lower SegLen.upper SegLen.centroidReal centerReal
    constructor <;> linarith

/-- **C22** is false for `LowerBoundAndLength` with integral values: no segment contains its own
upper bound; and for `LowerBoundAndUpperBound` with negative integers the centre can be outside. -/
theorem C22_segment_length_int_counterexample (s : SegLen ℤ) : s.containsInt s.upper = false := by
  unfold SegLen.containsInt SegLen.upper
  simp

theorem C22_centre_counterexample :
    ∃ s : Seg ℤ, s.lower ≤ s.upper ∧ s.contains (centerInt s.lower s.upper) = false :=
  ⟨⟨-2, -2⟩, by decide, by decide⟩

/-- **C22**, `make_tight_segment`: for a non-empty list of values inside the limits of the type, the
result contains all of them and is contained in every segment that does. -/
theorem C22_tight_segment {K : Type} [LinearOrder K] (vmax vlowest : K) (vals : List K)
    (hne : vals ≠ []) (hlim : ∀ v ∈ vals, vlowest ≤ v ∧ v ≤ vmax) :
    (∀ v ∈ vals, InSeg (tightSegment vmax vlowest vals) v) ∧
    (tightSegment vmax vlowest vals).lower ∈ vals ∧ (tightSegment vmax vlowest vals).upper ∈ vals ∧
    ∀ s : Seg K, (∀ v ∈ vals, InSeg s v) →
      s.lower ≤ (tightSegment vmax vlowest vals).lower ∧
      (tightSegment vmax vlowest vals).upper ≤ s.upper := by
  let step : Seg K → K → Seg K := fun s v =>
    let s := if v < s.lower then s.updateLower v else s
    if s.upper < v then s.updateUpper v else s
  have hstep : ∀ s v, (step s v).lower = min s.lower v ∧ (step s v).upper = max s.upper v := by
    intro s v
    simp only [step, Seg.updateLower, Seg.updateUpper]
    by_cases h1 : v < s.lower <;> by_cases h2 : s.upper < v <;>
      simp [h1, h2, min_eq_right, max_eq_right, min_eq_left, max_eq_left, not_lt.1, le_of_lt] <;>
      constructor <;> first | exact (not_lt.1 h1) | exact (not_lt.1 h2) | skip
  have key : ∀ (l : List K) (s : Seg K),
      ((l.foldl step s).lower ≤ s.lower ∧ s.upper ≤ (l.foldl step s).upper) ∧
      (∀ v ∈ l, (l.foldl step s).lower ≤ v ∧ v ≤ (l.foldl step s).upper) ∧
      ((l.foldl step s).lower = s.lower ∨ (l.foldl step s).lower ∈ l) ∧
      ((l.foldl step s).upper = s.upper ∨ (l.foldl step s).upper ∈ l) := by
    intro l
    induction l with
    | nil => intro s; simp
    | cons a l ih =>
      intro s
      obtain ⟨⟨h1, h2⟩, h3, h4, h5⟩ := ih (step s a)
      obtain ⟨e1, e2⟩ := hstep s a
      rw [e1] at h1 h4
      rw [e2] at h2 h5
      simp only [List.foldl_cons]
      refine ⟨⟨h1.trans (min_le_left _ _), (le_max_left _ _).trans h2⟩, ?_, ?_, ?_⟩
      · intro v hv
        rcases List.mem_cons.1 hv with rfl | hv
        · exact ⟨h1.trans (min_le_right _ _), (le_max_right _ _).trans h2⟩
        · exact h3 v hv
      · rcases h4 with h4 | h4
        · rcases min_choice s.lower a with h | h <;> rw [h] at h4
          · exact Or.inl h4
          · right; rw [h4]; simp
        · right; simp [h4]
      · rcases h5 with h5 | h5
        · rcases max_choice s.upper a with h | h <;> rw [h] at h5
          · exact Or.inl h5
          · right; rw [h5]; simp
        · right; simp [h5]
  have hfold : tightSegment vmax vlowest vals = vals.foldl step ⟨vmax, vlowest⟩ := rfl
  obtain ⟨_, h3, h4, h5⟩ := key vals ⟨vmax, vlowest⟩
  rw [← hfold] at h3 h4 h5
  obtain ⟨a, ha⟩ := List.exists_mem_of_ne_nil _ hne
  have hlo : (tightSegment vmax vlowest vals).lower ∈ vals := by
    rcases h4 with h4 | h4
    · have h6 := (h3 a ha).1
      rw [h4] at h6 ⊢
      rw [le_antisymm h6 (hlim a ha).2]; exact ha
    · exact h4
  have hup : (tightSegment vmax vlowest vals).upper ∈ vals := by
    rcases h5 with h5 | h5
    · have h6 := (h3 a ha).2
      rw [h5] at h6 ⊢
      rw [le_antisymm (hlim a ha).1 h6]; exact ha
    · exact h5
  exact ⟨h3, hlo, hup, fun s hs => ⟨(hs _ hlo).1, (hs _ hup).2⟩⟩

/-! ### C67: membership and diameter -/

/-- **C67**, boxes: `is_in_bounds` is membership in every segment. -/
theorem C67_box_membership {K : Type} [LinearOrder K] : ∀ (b : List (Seg K)) (p : List K),
    b.length = p.length → ∃ r, boxContains b p = some r ∧ (r = true ↔ InBox b p) := by
  intro b
  induction b with
  | nil =>
    intro p hp
    cases p with
    | nil => exact ⟨true, rfl, fun _ => .nil, fun _ => rfl⟩
    | cons _ _ => simp at hp
  | cons s b ih =>
    intro p hp
    cases p with
    | nil => simp at hp
    | cons v p =>
      obtain ⟨r, e, h⟩ := ih p (by simpa using hp)
      by_cases hs : s.contains v = true
      · refine ⟨r, by simp [boxContains, hs, e], ?_⟩
        rw [h]
        exact ⟨fun hb => .cons ((contains_iff s v).1 hs) hb, fun hb => by cases hb; assumption⟩
      · refine ⟨false, by simp [boxContains, hs], ?_⟩
        refine ⟨fun hf => by simp at hf, fun hb => ?_⟩
        cases hb with
        | cons h1 _ => exact absurd ((contains_iff s v).2 h1) hs

theorem boxSqDiameter_spec : ∀ (b : List (Seg ℝ)), (∀ p q, InBox b p → InBox b q →
      (List.zipWith (fun u v => (u - v) * (u - v)) p q).sum ≤ boxSqDiameter b) ∧
    ((∀ t ∈ b, t.lower ≤ t.upper) → ∃ p q, InBox b p ∧ InBox b q ∧
      (List.zipWith (fun u v => (u - v) * (u - v)) p q).sum = boxSqDiameter b) := by
  intro b
  induction b with
  | nil =>
    refine ⟨fun p q hp hq => by cases hp; simp [boxSqDiameter],
      fun _ => ⟨[], [], .nil, .nil, by simp [boxSqDiameter]⟩⟩
  | cons s b ih =>
    have hc : boxSqDiameter (s :: b) =
        (s.upper - s.lower) * (s.upper - s.lower) + boxSqDiameter b := by simp [boxSqDiameter]
    refine ⟨?_, ?_⟩
    · intro p q hp hq
      cases hp with
      | cons hp1 hp2 =>
        cases hq with
        | cons hq1 hq2 =>
          rw [hc, List.zipWith_cons_cons, List.sum_cons]
          refine add_le_add ?_ (ih.1 _ _ hp2 hq2)
          obtain ⟨a1, a2⟩ := hp1
          obtain ⟨b1, b2⟩ := hq1
          nlinarith
    · intro hne
      obtain ⟨p, q, hp, hq, e⟩ := ih.2 (fun t ht => hne t (by simp [ht]))
      have hs := hne s (by simp)
      refine ⟨s.upper :: p, s.lower :: q, .cons ⟨hs, le_refl _⟩ hp, .cons ⟨le_refl _, hs⟩ hq, ?_⟩
      rw [hc, List.zipWith_cons_cons, List.sum_cons, e]

/-- **C67**, boxes: `diameter` is the largest Euclidean distance of two points of the box. -/
theorem C67_box_diameter (b : List (Seg ℝ)) :
    (∀ p q v, InBox b p → InBox b q → euclidean p q = some v → v ≤ boxDiameter b) ∧
    ((∀ t ∈ b, t.lower ≤ t.upper) →
      ∃ p q, InBox b p ∧ InBox b q ∧ euclidean p q = some (boxDiameter b)) := by
  obtain ⟨h1, h2⟩ := boxSqDiameter_spec b
  refine ⟨?_, ?_⟩
  · intro p q v hp hq hv
    rw [euclidean_eq (by rw [← hp.length_eq, ← hq.length_eq])] at hv
    rw [← Option.some.inj hv]
    exact Real.sqrt_le_sqrt (h1 p q hp hq)
  · intro hne
    obtain ⟨p, q, hp, hq, e⟩ := h2 hne
    refine ⟨p, q, hp, hq, ?_⟩
    rw [euclidean_eq (by rw [← hp.length_eq, ← hq.length_eq]), e]; rfl

/-- **C67**, balls: two points inside a ball are closer than its diameter. -/
theorem C67_ball_diameter {K : Type} [Ring K] [LinearOrder K] [IsStrictOrderedRing K]
    {d : List K → List K → Option K} {coord : K → K → K} (hm : IsMetric d coord) (b : Ball K)
    (p q : List K) (hp : p.length = b.centre.length) (hq : q.length = b.centre.length) (v : K)
    (h1 : b.contains d p = some true) (h2 : b.contains d q = some true) (hv : d p q = some v) :
    v < b.diameter := by
  obtain ⟨u1, hu1, _, _⟩ := hm.defined p b.centre hp
  obtain ⟨u2, hu2, _, _⟩ := hm.defined q b.centre hq
  simp only [Ball.contains, hu1, hu2, Option.map_some, Option.some.injEq, decide_eq_true_eq] at h1 h2
  have hs := hm.symm q b.centre hq
  rw [hu2] at hs
  have t := hm.triangle p b.centre q hp hq.symm v u1 u2 hv hu1 hs.symm
  unfold Ball.diameter
  rw [two_mul]
  exact lt_of_le_of_lt t (add_lt_add h1 h2)

/-! ### C68: radius of a box -/

theorem boxFurthestInt_spec : ∀ (b : List (Seg ℤ)) (f : ℤ),
    f ≤ b.foldl (fun f s => if sizeInt s.lower s.upper > f then sizeInt s.lower s.upper else f) f ∧
    ∀ s ∈ b, sizeInt s.lower s.upper ≤
      b.foldl (fun f s => if sizeInt s.lower s.upper > f then sizeInt s.lower s.upper else f) f := by
  intro b
  induction b with
  | nil => intro f; simp
  | cons s b ih =>
    intro f
    simp only [List.foldl_cons]
    obtain ⟨h1, h2⟩ := ih (if sizeInt s.lower s.upper > f then sizeInt s.lower s.upper else f)
    have h3 : f ≤ (if sizeInt s.lower s.upper > f then sizeInt s.lower s.upper else f) ∧
        sizeInt s.lower s.upper ≤
          (if sizeInt s.lower s.upper > f then sizeInt s.lower s.upper else f) := by
      split <;> constructor <;> omega
    refine ⟨h3.1.trans h1, ?_⟩
    intro t ht
    rcases List.mem_cons.1 ht with rfl | ht
    · exact h3.2.trans h1
    · exact h2 t ht

/-- **C68**, part that holds: for integral boxes each coordinate of a point inside differs from the
centroid by less than `centroid_to_furthest_bound_distance`.  What is missing: the distance itself can
be larger in two or more dimensions, and for floating boxes the value is truncated to an integer
(`C68_counterexamples`). -/
theorem C68_furthest_int_partial (b : List (Seg ℤ)) (s : Seg ℤ) (hs : s ∈ b) (v : ℤ)
    (hv : InSeg s v) : |v - centerInt s.lower s.upper| < boxFurthestInt b := by
  have h := (C63_centre_partial s.lower s.upper (hv.1.trans hv.2)).2.2.2 v hv.1 hv.2
  exact lt_of_lt_of_le h ((boxFurthestInt_spec b 0).2 s hs)

/-- **C68** is false: in the integral box from (0,0) to (4,4) with centroid (2,2) the corner (4,4) is
at Manhattan distance 4 but the reported furthest distance is 3; and for the floating segment from
0 to 1 the reported furthest distance is 0. -/
theorem C68_counterexamples :
    (boxFurthestInt [⟨0, 4⟩, ⟨0, 4⟩] = 3 ∧ centerInt 0 4 = 2 ∧
      manhattan [(4 : ℤ), 4] [2, 2] = some 4) ∧
    boxFurthestReal [⟨0, 1⟩] = 0 := by
  refine ⟨⟨by decide, by decide, by decide +kernel⟩, ?_⟩
  simp only [boxFurthestReal, List.foldl_cons, List.foldl_nil, sizeReal]
  norm_num

/-! Concrete cases. -/

example : boxSqDist [⟨(0 : ℤ), 1⟩, ⟨0, 1⟩] [⟨4, 6⟩, ⟨5, 7⟩] = some 25 := by decide +kernel
example : segMinDist (⟨0, 4⟩ : Seg ℤ) ⟨2, 9⟩ = 0 := by decide
example : tightSegment 127 (-128) [3, -7, 12, 5] = (⟨-7, 12⟩ : Seg ℤ) := by decide
example : InBox [⟨(0 : ℤ), 1⟩, ⟨0, 1⟩] [1, 0] :=
  .cons ⟨by decide, by decide⟩ (.cons ⟨by decide, by decide⟩ .nil)
example : centerInt (-3) 2 = -1 ∧ sizeInt (-3) 2 = 4 := by decide

end Verif.Bounds
