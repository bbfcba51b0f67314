import Verif.Lemmas.FasterPAMGrid
import Verif.Props.FasterPAM
import Verif.Lemmas.RoundingDist
import Verif.Spec.KMeans

/-
Property C129: FasterPAM with rounded sums.
-/

namespace Verif.KMedoids

open Spec Verif.Dendrogram
open Verif.Rounding (Rounding unit IsFloat)

variable {p : Nat}

theorem relErr (R : Rounding p) : RelErr (unit p) R.rnd :=
  ⟨Verif.Rounding.Rounding.unit_pos.le, fun x => (R.rel_error x).1⟩

theorem unit_le_one : unit p ≤ 1 := by
  unfold Verif.Rounding.unit
  exact zpow_le_one_of_nonpos₀ (by norm_num) (by omega)

theorem mono (R : Rounding p) : Monotone R.rnd := fun _ _ h => R.mono h

theorem slack_nonneg {d : Nat → Nat → ℝ} {n : Nat} (hd : IsTable d n) {D : ℝ}
    (hD : ∀ i o, i < n → o < n → d i o ≤ D) : 0 ≤ slack (unit p) n D := by
  have h1 := pow_sub_one_nonneg (Verif.Rounding.Rounding.unit_pos (p := p)).le (2 * n + 2)
  rcases Nat.eq_zero_or_pos n with rfl | hn
  · simp [slack]
  · have : 0 ≤ D := (hd.1 0 0 hn hn).trans (hD 0 0 hn hn)
    unfold slack
    positivity

/-- Any number of steps, followed by the candidates `0` to `m - 1` of another one. -/
theorem runR_spec (R : Rounding p) {d : Nat → Nat → ℝ} {n : Nat} (hd : IsTable d n) {D : ℝ}
    (hD : ∀ i o, i < n → o < n → d i o ≤ D) {s : PState ℝ}
    (hms : ∀ m ∈ s.medoids, m < n) (h : BufR R.rnd (unit p) d n s) (t : Nat) (m : Nat) (hm : m ≤ n) :
    ∃ s', (KMeans.runN (pamStepR R.rnd d n) t s).bind (stepLoopR R.rnd d n (List.range m)) = some s' ∧
      BufR R.rnd (unit p) d n s' ∧ (∀ m ∈ s'.medoids, m < n) ∧
      s'.medoids.length = s.medoids.length ∧ (s.medoids.Nodup → s'.medoids.Nodup) ∧
      td d n s'.medoids ≤ td d n s.medoids + (t * n + m) * slack (unit p) n D := by
  have hs := slack_nonneg (p := p) hd hD
  have hrun : ∃ s', KMeans.runN (pamStepR R.rnd d n) t s = some s' ∧
      BufR R.rnd (unit p) d n s' ∧ (∀ m ∈ s'.medoids, m < n) ∧
      s'.medoids.length = s.medoids.length ∧ (s.medoids.Nodup → s'.medoids.Nodup) ∧
      td d n s'.medoids ≤ td d n s.medoids + (t * n) * slack (unit p) n D := by
    induction t with
    | zero => exact ⟨s, rfl, h, hms, rfl, id, by simp⟩
    | succ t ih =>
      obtain ⟨s1, e1, h1, hm1, hl1, hn1, hle1⟩ := ih
      obtain ⟨s2, e2, h2, hl2, hm2, hn2, hle2⟩ := stepLoopR_spec (relErr R) unit_le_one (mono R) hd hD hs
        (List.range n) s1 (fun c hc => List.mem_range.1 hc) hm1 h1
      refine ⟨s2, by simp only [KMeans.runN, e1, Option.bind_some]; exact e2, h2, hm2, by omega,
        fun hn => hn2 (hn1 hn), ?_⟩
      rw [List.length_range] at hle2
      push_cast
      linarith
  obtain ⟨s1, e1, h1, hm1, hl1, hn1, hle1⟩ := hrun
  obtain ⟨s2, e2, h2, hl2, hm2, hn2, hle2⟩ := stepLoopR_spec (relErr R) unit_le_one (mono R) hd hD hs
    (List.range m) s1 (fun c hc => lt_of_lt_of_le (List.mem_range.1 hc) hm) hm1 h1
  refine ⟨s2, by rw [e1]; exact e2, h2, hm2, by omega, fun hn => hn2 (hn1 hn), ?_⟩
  rw [List.length_range] at hle2
  linarith

/-- The states of the rounded run: any number of steps from the constructor, followed by the candidates `0`
to `m - 1` of another step. -/
noncomputable def reachedR (R : Rounding p) (vmax : ℝ) (eq : ℝ → ℝ → Bool) (d : Nat → Nat → ℝ) (n : Nat)
    (ms : List Nat) (t m : Nat) : Option (PState ℝ) :=
  (pamInitR R.rnd vmax eq d n ms).bind fun s =>
    (KMeans.runN (pamStepR R.rnd d n) t s).bind (stepLoopR R.rnd d n (List.range m))

theorem reachedR_spec (R : Rounding p) (vmax : ℝ) (eq : ℝ → ℝ → Bool) {d : Nat → Nat → ℝ} {n : Nat}
    {ms : List Nat} (hd : IsTable d n) {D : ℝ} (hD : ∀ i o, i < n → o < n → d i o ≤ D)
    (hms : ∀ m ∈ ms, m < n) (hk : 2 ≤ ms.length)
    (hv : ∀ o, o < n → ∀ m ∈ ms, d m o < vmax) (ht : ∀ o, o < n → NoTies eq (dists d ms o)) (t m : Nat)
    (hm : m ≤ n) :
    ∃ s, reachedR R vmax eq d n ms t m = some s ∧
      BufR R.rnd (unit p) d n s ∧ (∀ m ∈ s.medoids, m < n) ∧
      s.medoids.length = ms.length ∧ (ms.Nodup → s.medoids.Nodup) ∧
      td d n s.medoids ≤ td d n ms + (t * n + m) * slack (unit p) n D := by
  obtain ⟨s0, e0, em, h0⟩ := pamInitR_spec (relErr R) vmax eq hd hms hk hv ht
  obtain ⟨s, e, h⟩ := runR_spec R hd hD (by rw [em]; exact hms) h0 t m hm
  rw [em] at h
  exact ⟨s, by rw [reachedR, e0]; exact e, h⟩

/-- **C129**, the buffers.  Sums and differences are rounded.  Start from medoids without ties and make any
number of steps, also stopping within a step.  No access is out of bounds, the number of medoids stays, they
stay samples and stay distinct.  For every sample the cached positions and distances are exactly those of a
nearest and of a second nearest of the current medoids, and the reported total deviation is that of the
medoids up to the error of a sum of `n` terms. -/
theorem C129_consistent (R : Rounding p) (vmax : ℝ) (eq : ℝ → ℝ → Bool) (d : Nat → Nat → ℝ) (n : Nat)
    (ms : List Nat) (hd : IsTable d n) (hms : ∀ m ∈ ms, m < n) (hnd : ms.Nodup) (hk : 2 ≤ ms.length)
    (hv : ∀ o, o < n → ∀ m ∈ ms, d m o < vmax) (ht : ∀ o, o < n → NoTies eq (dists d ms o)) (t m : Nat)
    (hm : m ≤ n) :
    ∃ s, reachedR R vmax eq d n ms t m = some s ∧ s.medoids.length = ms.length ∧
      (∀ m ∈ s.medoids, m < n) ∧ s.medoids.Nodup ∧
      |s.loss - td d n s.medoids| ≤ ((1 + unit p) ^ n - 1) * td d n s.medoids ∧ s.buf.length = n ∧
      ∀ o, o < n → ∃ r : Rec ℝ, s.buf[o]? = some r ∧ Smallest (dists d s.medoids o) [] r.i1 r.d1 ∧
        Smallest (dists d s.medoids o) [r.i1] r.i2 r.d2 := by
  obtain ⟨D, hD⟩ : ∃ D : ℝ, ∀ i o, i < n → o < n → d i o ≤ D := by
    refine ⟨((List.range n).map fun i => ((List.range n).map fun o => d i o).sum).sum, fun i o hi ho => ?_⟩
    have h1 : d i o ≤ ((List.range n).map fun o => d i o).sum :=
      List.single_le_sum (by
        intro x hx
        obtain ⟨q, hq, rfl⟩ := List.mem_map.1 hx
        exact hd.1 _ _ hi (List.mem_range.1 hq)) _ (List.mem_map.2 ⟨o, List.mem_range.2 ho, rfl⟩)
    refine h1.trans (List.single_le_sum (l := (List.range n).map fun i => ((List.range n).map fun o => d i o).sum)
      ?_ _ (List.mem_map.2 ⟨i, List.mem_range.2 hi, rfl⟩))
    intro x hx
    obtain ⟨q, hq, rfl⟩ := List.mem_map.1 hx
    refine List.sum_nonneg ?_
    intro y hy
    obtain ⟨w, hw, rfl⟩ := List.mem_map.1 hy
    exact hd.1 _ _ (List.mem_range.1 hq) (List.mem_range.1 hw)
  obtain ⟨s, e, h, hr, hl, hn, -⟩ := reachedR_spec R vmax eq hd hD hms hk hv ht t m hm
  refine ⟨s, e, hl, hr, hn hnd, h.loss.1, h.len, fun o ho => ?_⟩
  obtain ⟨r, er, hr, -⟩ := recAtR h o ho
  exact ⟨r, er, hr.1, hr.2⟩

/-- **C129**, the gain.  Let no distance exceed `D`.  In every state reached, `find_best_swap` returns a
position and the change of the total deviation by the exchange at this position, up to an error of
`((1 + u) ^ (2 n + 2) - 1) * 2 n D`, and no other position is better by more than twice this error. -/
theorem C129_gain (R : Rounding p) (vmax : ℝ) (eq : ℝ → ℝ → Bool) (d : Nat → Nat → ℝ) (n : Nat)
    (ms : List Nat) (hd : IsTable d n) (D : ℝ) (hD : ∀ i o, i < n → o < n → d i o ≤ D)
    (hms : ∀ m ∈ ms, m < n) (hk : 2 ≤ ms.length)
    (hv : ∀ o, o < n → ∀ m ∈ ms, d m o < vmax) (ht : ∀ o, o < n → NoTies eq (dists d ms o)) (t m : Nat)
    (hm : m ≤ n) (c : Nat) (hc : c < n) :
    ∃ s delta i, reachedR R vmax eq d n ms t m = some s ∧ findBestSwapR R.rnd d n s c = some (delta, i) ∧
      i < ms.length ∧
      |delta - (td d n (s.medoids.set i c) - td d n s.medoids)| ≤
        ((1 + unit p) ^ (2 * n + 2) - 1) * (2 * n * D) ∧
      ∀ j, j < ms.length → td d n (s.medoids.set i c) ≤
        td d n (s.medoids.set j c) + 2 * (((1 + unit p) ^ (2 * n + 2) - 1) * (2 * n * D)) := by
  obtain ⟨s, e, h, hr, hl, -, -⟩ := reachedR_spec R vmax eq hd hD hms hk hv ht t m hm
  obtain ⟨delta, i, e1, hi, h1, h2, -⟩ := findBestSwapR_spec (relErr R) (mono R) hd hD hr h c hc
  refine ⟨s, delta, i, e, e1, by omega, h1, fun j hj => ?_⟩
  have := h2 j (by omega)
  have h3 := (abs_le.1 h1).1
  unfold slack at *
  linarith

/-- **C129**, one candidate.  In every state reached, trying a candidate either leaves the state, and then,
unless the guard skipped the candidate, no exchange with it lowers the total deviation by more than the error
of the gain; or replaces one medoid with the candidate, which was not a medoid (or leaves the medoids as they
are), and the total deviation grows by less than the error of the gain. -/
theorem C129_exchange (R : Rounding p) (vmax : ℝ) (eq : ℝ → ℝ → Bool) (d : Nat → Nat → ℝ) (n : Nat)
    (ms : List Nat) (hd : IsTable d n) (D : ℝ) (hD : ∀ i o, i < n → o < n → d i o ≤ D)
    (hms : ∀ m ∈ ms, m < n) (hk : 2 ≤ ms.length)
    (hv : ∀ o, o < n → ∀ m ∈ ms, d m o < vmax) (ht : ∀ o, o < n → NoTies eq (dists d ms o)) (t m : Nat)
    (hm : m ≤ n) (c : Nat) (hc : c < n) :
    ∃ s s', reachedR R vmax eq d n ms t m = some s ∧ tryCandidateR R.rnd d n s c = some s' ∧
      ((s' = s ∧ ((∃ x, Smallest (dists d s.medoids c) [] c x) ∨ ∀ j, j < ms.length → td d n s.medoids ≤
          td d n (s.medoids.set j c) + ((1 + unit p) ^ (2 * n + 2) - 1) * (2 * n * D))) ∨
        ∃ b, b < ms.length ∧ s'.medoids = s.medoids.set b c ∧ (c ∉ s.medoids ∨ s'.medoids = s.medoids) ∧
          td d n s'.medoids < td d n s.medoids + ((1 + unit p) ^ (2 * n + 2) - 1) * (2 * n * D)) := by
  obtain ⟨s, e, h, hr, hl, -, -⟩ := reachedR_spec R vmax eq hd hD hms hk hv ht t m hm
  obtain ⟨s', e1, h1, hcase⟩ := tryCandidateR_spec (relErr R) unit_le_one (mono R) hd hD hr h c hc
  refine ⟨s, s', e, e1, ?_⟩
  rcases hcase with ⟨rfl, ho⟩ | ⟨b, hb, em, hcm, hlt, -⟩
  · refine Or.inl ⟨rfl, ?_⟩
    obtain ⟨r, er, hrr, -⟩ := recAtR h c hc
    by_cases hcr : c = r.i1
    · refine Or.inl ⟨r.d1, ?_⟩
      have := hrr.1
      rwa [← hcr] at this
    · exact Or.inr fun j hj => ho r er hcr j (by omega)
  · exact Or.inr ⟨b, by omega, em, hcm, hlt⟩

/-- **C129**, any number of steps: the total deviation of the medoids exceeds that of the start by at most the
error of the gain for every candidate tried. -/
theorem C129_never_much_worse (R : Rounding p) (vmax : ℝ) (eq : ℝ → ℝ → Bool) (d : Nat → Nat → ℝ) (n : Nat)
    (ms : List Nat) (hd : IsTable d n) (D : ℝ) (hD : ∀ i o, i < n → o < n → d i o ≤ D)
    (hms : ∀ m ∈ ms, m < n) (hk : 2 ≤ ms.length)
    (hv : ∀ o, o < n → ∀ m ∈ ms, d m o < vmax) (ht : ∀ o, o < n → NoTies eq (dists d ms o)) (t : Nat) :
    ∃ s, (pamInitR R.rnd vmax eq d n ms).bind (KMeans.runN (pamStepR R.rnd d n) t) = some s ∧
      td d n s.medoids ≤ td d n ms + t * n * (((1 + unit p) ^ (2 * n + 2) - 1) * (2 * n * D)) := by
  obtain ⟨s, e, -, -, -, -, hle⟩ := reachedR_spec R vmax eq hd hD hms hk hv ht t 0 (Nat.zero_le _)
  refine ⟨s, ?_, by simpa [slack] using hle⟩
  rw [← e, reachedR]
  congr 1
  funext s0
  rw [List.range_zero]
  cases KMeans.runN (pamStepR R.rnd d n) t s0 <;> rfl

theorem isFloat_int {z : ℤ} (h : |z| ≤ 2 ^ p) : IsFloat p z := ⟨z, 0, h, by simp⟩

theorem exact_whole (R : Rounding p) : Exact R.rnd (2 ^ p) := by
  rintro x ⟨z, rfl, hz⟩
  exact R.of_isFloat (isFloat_int (by exact_mod_cast hz))

/-- **C129**, whole distances.  If all distances are whole numbers of at most `D` (Levenshtein distances, or
integer data with the Manhattan distance) and `4 n D` does not exceed `2 ^ p`, nothing is rounded: the run is
the run of exact arithmetic, for which C46 to C49 are proved. -/
theorem C129_whole (R : Rounding p) (vmax : ℝ) (eq : ℝ → ℝ → Bool) (d : Nat → Nat → ℝ) (n D : Nat)
    (ms : List Nat) (hd : ∀ i o, i < n → o < n → ∃ z : ℕ, d i o = z ∧ z ≤ D) (h0 : ∀ i, i < n → d i i = 0)
    (hD : 4 * n * D ≤ 2 ^ p) (hms : ∀ m ∈ ms, m < n) (hk : 2 ≤ ms.length)
    (hv : ∀ o, o < n → ∀ m ∈ ms, d m o < vmax) (ht : ∀ o, o < n → NoTies eq (dists d ms o)) (t : Nat) :
    (pamInitR R.rnd vmax eq d n ms).bind (KMeans.runN (pamStepR R.rnd d n) t) =
      (pamInit vmax eq d n ms).bind (KMeans.runN (pamStep d n) t) := by
  have hd' : IsTable d n := by
    refine ⟨fun i o hi ho => ?_, h0⟩
    obtain ⟨z, e, -⟩ := hd i o hi ho
    rw [e]
    positivity
  rw [pamInitR_eq (exact_whole R) hD hd vmax eq hms hk hv ht]
  obtain ⟨s0, e0, em, h, -⟩ := pamInit_spec vmax eq hk hv ht
  rw [e0, Option.bind_some, Option.bind_some]
  induction t with
  | zero => rfl
  | succ t ih =>
    obtain ⟨s, e, hs, hm, -⟩ := run_spec hd' (by rw [em]; exact hms) h t
    rw [KMeans.runN, KMeans.runN, ih, e, Option.bind_some, Option.bind_some]
    exact stepLoopR_eq (exact_whole R) hD hd' hd (List.range n) s (fun c hc => List.mem_range.1 hc) hm hs

/-! ### Examples -/

/-- A metric on seven samples: 0 and 1 are the medoids, 2 and 3 are close to 0, the others are almost halfway
between the medoids. -/
def farTable : Nat → Nat → ℤ := fun i j =>
  ((([[0, 67108864, 16, 32, 33554432, 33554432, 33554432],
      [67108864, 0, 67108864, 67108864, 33554436, 33554436, 33554436],
      [16, 67108864, 0, 24, 33554440, 33554440, 33554440],
      [32, 67108864, 24, 0, 33554440, 33554440, 33554440],
      [33554432, 33554436, 33554440, 33554440, 0, 0, 0],
      [33554432, 33554436, 33554440, 33554440, 0, 0, 0],
      [33554432, 33554436, 33554440, 33554440, 0, 0, 0]] : List (List ℤ)).getD i []).getD j 0)

example : (∀ i < 7, ∀ j < 7, farTable i j = farTable j i) ∧ (∀ i < 7, farTable i i = 0) ∧
    ∀ i < 7, ∀ j < 7, ∀ k < 7, farTable i k ≤ farTable i j + farTable j k := by
  decide +kernel

/-- Equality of reals, for the examples. -/
noncomputable def eqReal : ℝ → ℝ → Bool := fun a b => decide (a = b)

/-- The table as real numbers. -/
noncomputable def farR : Nat → Nat → ℝ := fun i j => farTable i j

theorem range7 : List.range 7 = [0, 1, 2, 3, 4, 5, 6] := rfl

theorem far_buf : (nthIndices 1000000000 eqReal farR 7 [0, 1] 1 = some [0, 1, 0, 0, 0, 0, 0]) ∧
    (nthIndices 1000000000 eqReal farR 7 [0, 1] 2 = some [1, 0, 1, 1, 1, 1, 1]) ∧
    (nthDistances 1000000000 eqReal farR 7 [0, 1] 1 = some [0, 0, 16, 32, 33554432, 33554432, 33554432]) ∧
    (nthDistances 1000000000 eqReal farR 7 [0, 1] 2 =
      some [67108864, 67108864, 67108864, 67108864, 33554436, 33554436, 33554436]) := by
  refine ⟨?_, ?_, ?_, ?_⟩
  · simp [nthIndices, nearestIndices, first, firstLoop, row, range7, farR, farTable]
    norm_num
  · simp [nthIndices, second, secondLoop, row, range7, farR, farTable, eqReal]
    norm_num
  · simp [nthDistances, nearestDistances, first, firstLoop, row, range7, farR, farTable]
    norm_num
  · simp [nthDistances, second, secondLoop, row, range7, farR, farTable, eqReal]
    norm_num

theorem rnd_whole (R : Rounding 24) (z : ℤ) (e : ℕ) (h : |z| ≤ 2 ^ 24) {x : ℝ} (hx : x = z * 2 ^ e) :
    R.rnd x = x := R.of_isFloat ⟨z, e, h, by rw [hx]; norm_cast⟩

theorem rnd_far (R : Rounding 24) : R.rnd 201326548 = 201326544 := by
  have hf : IsFloat 24 201326544 := ⟨12582909, 4, by norm_num, by norm_num⟩
  have h := R.nearest 201326548 201326544 hf
  rw [show |(201326544 : ℝ) - 201326548| = 4 by norm_num, abs_le] at h
  obtain ⟨m, e, hm, hx⟩ := R.isFloat 201326548
  have he : 4 ≤ e := by
    by_contra hn
    have h1 : (2 : ℝ) ^ e ≤ 2 ^ (3 : ℤ) := zpow_le_zpow_right₀ (by norm_num) (by omega)
    have h2 : (m : ℝ) ≤ 2 ^ 24 := by exact_mod_cast (abs_le.1 hm).2
    have h3 : (m : ℝ) * 2 ^ e ≤ 2 ^ 24 * 2 ^ (3 : ℤ) := by
      refine (mul_le_mul_of_nonneg_right h2 (by positivity)).trans (mul_le_mul_of_nonneg_left h1 (by positivity))
    rw [← hx] at h3
    norm_num at h3
    linarith
  obtain ⟨k, hk⟩ := Int.eq_ofNat_of_zero_le (show 0 ≤ e - 4 by omega)
  obtain rfl : e = 4 + (k : ℤ) := by omega
  have hx' : R.rnd 201326548 = ((m * 2 ^ k : ℤ) : ℝ) * 16 := by
    rw [hx, zpow_add₀ (by norm_num)]
    push_cast
    rw [zpow_natCast]
    norm_num
    ring
  rw [hx'] at h ⊢
  generalize m * 2 ^ k = z at h ⊢
  have h1 : (12582909 : ℝ) ≤ z := by linarith
  have h2 : (z : ℝ) < 12582910 := by linarith
  have h1' : 12582909 ≤ z := by exact_mod_cast h1
  have h2' : z < 12582910 := by exact_mod_cast h2
  have : z = 12582909 := by omega
  subst this
  norm_num

/-- The records of the constructor for the medoids 0 and 1. -/
noncomputable def farBuf : List (Rec ℝ) :=
  [⟨0, 0, 1, 67108864⟩, ⟨1, 0, 0, 67108864⟩, ⟨0, 16, 1, 67108864⟩, ⟨0, 32, 1, 67108864⟩,
    ⟨0, 33554432, 1, 33554436⟩, ⟨0, 33554432, 1, 33554436⟩, ⟨0, 33554432, 1, 33554436⟩]

theorem far_removal (R : Rounding 24) : removalR R.rnd 2 farBuf = some [201326544, 67108864] := by
  have r1 : R.rnd 67108864 = 67108864 := rnd_whole R 1 26 (by norm_num) (by norm_num)
  have r2 : R.rnd 67108848 = 67108848 := rnd_whole R 4194303 4 (by norm_num) (by norm_num)
  have r3 : R.rnd 67108832 = 67108832 := rnd_whole R 4194302 4 (by norm_num) (by norm_num)
  have r4 : R.rnd 4 = 4 := rnd_whole R 4 0 (by norm_num) (by norm_num)
  have r5 : R.rnd 134217712 = 134217712 := rnd_whole R 8388607 4 (by norm_num) (by norm_num)
  have r6 : R.rnd 201326544 = 201326544 := rnd_whole R 12582909 4 (by norm_num) (by norm_num)
  have a1 : (67108864 : ℝ) - 16 = 67108848 := by norm_num
  have a2 : (67108864 : ℝ) - 32 = 67108832 := by norm_num
  have a3 : (33554436 : ℝ) - 33554432 = 4 := by norm_num
  have a4 : (67108864 : ℝ) + 67108848 = 134217712 := by norm_num
  have a5 : (134217712 : ℝ) + 67108832 = 201326544 := by norm_num
  have a6 : (201326544 : ℝ) + 4 = 201326548 := by norm_num
  simp only [removalR, farBuf, removalLoopR, addAtR, List.replicate_succ, List.replicate_zero,
    List.getElem?_cons_zero, List.getElem?_cons_succ, Option.bind_eq_bind, Option.bind_some, List.set_cons_zero,
    List.set_cons_succ, sub_zero, zero_add, r1, a1, r2, a4, r5, a2, r3, a5, r6, a3, r4, a6, rnd_far]

theorem far_init (R : Rounding 24) : ∃ l, pamInitR R.rnd 1000000000 eqReal farR 7 [0, 1] =
    some ⟨[0, 1], farBuf, [201326544, 67108864], l⟩ := by
  obtain ⟨e1, e2, e3, e4⟩ := far_buf
  refine ⟨([0, 0, 16, 32, 33554432, 33554432, 33554432] : List ℝ).foldl (fun s x => R.rnd (s + x)) 0, ?_⟩
  unfold pamInitR
  rw [e1, e2, e3, e4]
  simp only [Option.bind_eq_bind, Option.bind_some, range7]
  have e5 : ([0, 1, 2, 3, 4, 5, 6] : List Nat).mapM (fun o => do
      let i1 ← ([0, 1, 0, 0, 0, 0, 0] : List Nat)[o]?
      let d1 ← ([0, 0, 16, 32, 33554432, 33554432, 33554432] : List ℝ)[o]?
      let i2 ← ([1, 0, 1, 1, 1, 1, 1] : List Nat)[o]?
      let d2 ← ([67108864, 67108864, 67108864, 67108864, 33554436, 33554436, 33554436] : List ℝ)[o]?
      pure (Rec.mk i1 d1 i2 d2)) = some farBuf := rfl
  simp only [Option.bind_eq_bind] at e5
  rw [e5, Option.bind_some]
  have := far_removal R
  simp only [List.length_cons, List.length_nil] at this ⊢
  rw [this, Option.bind_some]

theorem gain_second {fl : ℝ → ℝ} {d : Nat → Nat → ℝ} {buf : List (Rec ℝ)} {c o : Nat} {os : List Nat}
    {x0 x1 xc v : ℝ} {r : Rec ℝ} (er : buf[o]? = some r) (h1 : ¬ d c o < r.d1) (h2 : d c o < r.d2)
    (h3 : r.i1 = 0) (h4 : fl (x0 + fl (d c o - r.d2)) = v) :
    swapGainLoopR fl d buf c (o :: os) [x0, x1] xc = swapGainLoopR fl d buf c os [v, x1] xc := by
  simp only [swapGainLoopR, er, Option.bind_eq_bind, Option.bind_some, if_neg h1, if_pos h2, h3, addAtR,
    List.getElem?_cons_zero, List.set_cons_zero, h4]

theorem gain_first {fl : ℝ → ℝ} {d : Nat → Nat → ℝ} {buf : List (Rec ℝ)} {c o : Nat} {os : List Nat}
    {x0 x1 xc v w : ℝ} {r : Rec ℝ} (er : buf[o]? = some r) (h1 : d c o < r.d1)
    (h3 : r.i1 = 0) (h4 : fl (x0 + fl (r.d1 - r.d2)) = v) (h5 : fl (xc + fl (d c o - r.d1)) = w) :
    swapGainLoopR fl d buf c (o :: os) [x0, x1] xc = swapGainLoopR fl d buf c os [v, x1] w := by
  simp only [swapGainLoopR, er, Option.bind_eq_bind, Option.bind_some, if_pos h1, h3, addAtR,
    List.getElem?_cons_zero, List.set_cons_zero, h4, h5]

theorem gain_none {fl : ℝ → ℝ} {d : Nat → Nat → ℝ} {buf : List (Rec ℝ)} {c o : Nat} {os : List Nat}
    {mi : List ℝ} {xc : ℝ} {r : Rec ℝ} (er : buf[o]? = some r) (h1 : ¬ d c o < r.d1) (h2 : ¬ d c o < r.d2) :
    swapGainLoopR fl d buf c (o :: os) mi xc = swapGainLoopR fl d buf c os mi xc := by
  simp only [swapGainLoopR, er, Option.bind_eq_bind, Option.bind_some, if_neg h1, if_neg h2]

theorem far_swap (R : Rounding 24) (l : ℝ) :
    findBestSwapR R.rnd farR 7 ⟨[0, 1], farBuf, [201326544, 67108864], l⟩ 2 = some (-8, 0) := by
  have hr : ∀ x : ℝ, R.rnd (-x) = - R.rnd x := R.neg
  have r2 : R.rnd 67108848 = 67108848 := rnd_whole R 4194303 4 (by norm_num) (by norm_num)
  have r3 : R.rnd 67108832 = 67108832 := rnd_whole R 4194302 4 (by norm_num) (by norm_num)
  have r7 : R.rnd 134217696 = 134217696 := rnd_whole R 8388606 4 (by norm_num) (by norm_num)
  have r8 : R.rnd 16 = 16 := rnd_whole R 16 0 (by norm_num) (by norm_num)
  have r9 : R.rnd 8 = 8 := rnd_whole R 8 0 (by norm_num) (by norm_num)
  have r10 : R.rnd 24 = 24 := rnd_whole R 24 0 (by norm_num) (by norm_num)
  have f0 : farR 2 0 = 16 := by simp [farR, farTable]
  have f1 : farR 2 1 = 67108864 := by simp [farR, farTable]
  have f2 : farR 2 2 = 0 := by simp [farR, farTable]
  have f3 : farR 2 3 = 24 := by simp [farR, farTable]
  have f4 : farR 2 4 = 33554440 := by simp [farR, farTable]
  have f5 : farR 2 5 = 33554440 := by simp [farR, farTable]
  have f6 : farR 2 6 = 33554440 := by simp [farR, farTable]
  have c1 : ¬ (16 : ℝ) < 0 := by norm_num
  have c2 : (16 : ℝ) < 67108864 := by norm_num
  have c3 : ¬ (67108864 : ℝ) < 0 := by norm_num
  have c4 : (0 : ℝ) < 16 := by norm_num
  have c5 : (24 : ℝ) < 32 := by norm_num
  have c6 : ¬ (33554440 : ℝ) < 33554432 := by norm_num
  have c7 : ¬ (33554440 : ℝ) < 33554436 := by norm_num
  have a1 : (16 : ℝ) - 67108864 = -67108848 := by norm_num
  have a2 : (201326544 : ℝ) + -67108848 = 134217696 := by norm_num
  have a3 : (134217696 : ℝ) + -67108848 = 67108848 := by norm_num
  have a4 : (32 : ℝ) - 67108864 = -67108832 := by norm_num
  have a5 : (67108848 : ℝ) + -67108832 = 16 := by norm_num
  have a6 : (24 : ℝ) - 32 = -8 := by norm_num
  have a7 : (-16 : ℝ) + -8 = -24 := by norm_num
  have a8 : (-24 : ℝ) + 16 = -8 := by norm_num
  have b0 : farBuf[0]? = some ⟨0, 0, 1, 67108864⟩ := rfl
  have b1 : farBuf[1]? = some ⟨1, 0, 0, 67108864⟩ := rfl
  have b2 : farBuf[2]? = some ⟨0, 16, 1, 67108864⟩ := rfl
  have b3 : farBuf[3]? = some ⟨0, 32, 1, 67108864⟩ := rfl
  have b4 : farBuf[4]? = some ⟨0, 33554432, 1, 33554436⟩ := rfl
  have b5 : farBuf[5]? = some ⟨0, 33554432, 1, 33554436⟩ := rfl
  have b6 : farBuf[6]? = some ⟨0, 33554432, 1, 33554436⟩ := rfl
  have e : swapGainLoopR R.rnd farR farBuf 2 (List.range 7) [201326544, 67108864] 0 =
      some ([16, 67108864], -24) := by
    rw [range7, gain_second b0 (v := 134217696) (by rw [f0]; exact c1) (by rw [f0]; exact c2) rfl
        (by dsimp only; rw [f0, a1, hr, r2, a2, r7]),
      gain_none b1 (by rw [f1]; exact c3) (by rw [f1]; exact lt_irrefl _),
      gain_first b2 (v := 67108848) (w := -16) (by rw [f2]; exact c4) rfl
        (by dsimp only; rw [a1, hr, r2, a3, r2]) (by dsimp only; rw [f2, zero_sub, hr, r8, zero_add, hr, r8]),
      gain_first b3 (v := 16) (w := -24) (by rw [f3]; exact c5) rfl
        (by dsimp only; rw [a4, hr, r3, a5, r8]) (by dsimp only; rw [f3, a6, hr, r9, a7, hr, r10]),
      gain_none b4 (by rw [f4]; exact c6) (by rw [f4]; exact c7),
      gain_none b5 (by rw [f5]; exact c6) (by rw [f5]; exact c7),
      gain_none b6 (by rw [f6]; exact c6) (by rw [f6]; exact c7)]
    rfl
  have em : Stats.minPair [(16 : ℝ), 67108864] = some (0, 16) := by
    simp [Stats.minPair, Stats.best, Stats.bestLoop]
    norm_num
  unfold findBestSwapR
  rw [e, Option.bind_eq_bind, Option.bind_some]
  simp only [em, Option.bind_eq_bind, Option.bind_some, a8, hr, r9]

/-- The hypotheses of C129 hold for this table and these medoids. -/
theorem far_hyp : IsTable farR 7 ∧ (∀ i o, i < 7 → o < 7 → farR i o ≤ 67108864) ∧
    (∀ o, o < 7 → ∀ m ∈ [0, 1], farR m o < 1000000000) ∧
    (∀ o, o < 7 → NoTies eqReal (dists farR [0, 1] o)) ∧
    ∀ i o, i < 7 → o < 7 → IsFloat 24 (farR i o) := by
  have h1 : ∀ i < 7, ∀ o < 7, 0 ≤ farTable i o ∧ farTable i o ≤ 67108864 := by decide +kernel
  have h2 : ∀ i < 7, farTable i i = 0 := by decide +kernel
  have h3 : ∀ o < 7, farTable 0 o ≠ farTable 1 o := by decide +kernel
  have h4 : ∀ i < 7, ∀ o < 7, 4 * (farTable i o / 4) = farTable i o ∧ |farTable i o / 4| ≤ 2 ^ 24 := by
    decide +kernel
  refine ⟨⟨fun i o hi ho => ?_, fun i hi => ?_⟩, fun i o hi ho => ?_, fun o ho m hm => ?_, fun o ho => ?_,
    fun i o hi ho => ?_⟩
  · exact Int.cast_nonneg (h1 i hi o ho).1
  · simp [farR, h2 i hi]
  · have := (h1 i hi o ho).2
    unfold farR
    exact_mod_cast this
  · have := (h1 m (by simp at hm; omega) o ho).2
    unfold farR
    have h : farTable m o < 1000000000 := by omega
    exact_mod_cast h
  · have hne : farR 0 o ≠ farR 1 o := by
      unfold farR
      exact_mod_cast h3 o ho
    intro i j x y hij hx hy
    have hi := lt_of_some hx
    have hj := lt_of_some hy
    simp only [dists, List.map_cons, List.map_nil, List.length_cons, List.length_nil] at hi hj hx hy
    rcases (by omega : i = 0 ∨ i = 1) with rfl | rfl <;>
    rcases (by omega : j = 0 ∨ j = 1) with rfl | rfl <;>
    simp only [List.getElem?_cons_zero, List.getElem?_cons_succ, Option.some.injEq] at hx hy <;>
    first
      | exact absurd rfl hij
      | (subst hx hy
         refine ⟨by first | exact hne | exact hne.symm, ?_⟩
         simp only [eqReal, decide_eq_false_iff_not]
         first | exact hne | exact hne.symm)
  · obtain ⟨e, hle⟩ := h4 i hi o ho
    refine ⟨farTable i o / 4, 2, hle, ?_⟩
    unfold farR
    have : ((4 * (farTable i o / 4) : ℤ) : ℝ) = farTable i o := by rw [e]
    rw [← this]
    push_cast
    norm_num
    ring

theorem far_td : td farR 7 [0, 1] = 100663344 ∧ td farR 7 [2, 1] = 100663348 := by
  constructor <;>
  · simp [td, dists, range7, farR, farTable, List.min?]
    norm_num

/-- **C129** is sharp in this sense: in single precision a step can accept an exchange that makes the
clustering worse.  The changes of the three samples that are almost halfway are lost in the large sum, the
computed change of the total deviation is -8, the change is +4. -/
theorem C129_worse_counterexample (R : Rounding 24) :
    ∃ s s', pamInitR R.rnd 1000000000 eqReal farR 7 [0, 1] = some s ∧
      stepLoopR R.rnd farR 7 [0, 1, 2] s = some s' ∧ findBestSwapR R.rnd farR 7 s 2 = some (-8, 0) ∧
      s.medoids = [0, 1] ∧ s'.medoids = [2, 1] ∧
      td farR 7 s'.medoids = td farR 7 s.medoids + 4 := by
  obtain ⟨hd, hD, hv, ht, -⟩ := far_hyp
  obtain ⟨s, e, em, h⟩ := pamInitR_spec (relErr R) 1000000000 eqReal hd (ms := [0, 1]) (by decide) (by decide) hv ht
  obtain ⟨l, e'⟩ := far_init R
  obtain rfl : s = ⟨[0, 1], farBuf, [201326544, 67108864], l⟩ := by
    rw [e, Option.some.injEq] at e'
    exact e'
  obtain ⟨buf', v, e2, hl2, hr2, -⟩ := swapBuffersR_spec (relErr R) hd (ms := [0, 1]) (by decide) h.len h.recs 2 0
    (by decide) (by decide)
  obtain ⟨rem, e3⟩ := removalR_some (relErr R) hr2
  have es := far_swap R l
  have t0 : tryCandidateR R.rnd farR 7 ⟨[0, 1], farBuf, [201326544, 67108864], l⟩ 0 =
      some ⟨[0, 1], farBuf, [201326544, 67108864], l⟩ := by
    simp [tryCandidateR, farBuf]
  have t1 : tryCandidateR R.rnd farR 7 ⟨[0, 1], farBuf, [201326544, 67108864], l⟩ 1 =
      some ⟨[0, 1], farBuf, [201326544, 67108864], l⟩ := by
    simp [tryCandidateR, farBuf]
  have t2 : tryCandidateR R.rnd farR 7 ⟨[0, 1], farBuf, [201326544, 67108864], l⟩ 2 =
      some ⟨[2, 1], buf', rem, v⟩ := by
    have b2 : farBuf[2]? = some ⟨0, 16, 1, 67108864⟩ := rfl
    unfold tryCandidateR
    simp only [b2, es, Option.bind_eq_bind, Option.bind_some]
    rw [if_neg (by decide), if_pos (by norm_num), e2]
    simp only [Option.bind_some]
    rw [e3]
    rfl
  refine ⟨_, ⟨[2, 1], buf', rem, v⟩, e, ?_, es, rfl, rfl, ?_⟩
  · simp only [stepLoopR, t0, t1, t2, Option.bind_eq_bind, Option.bind_some]
  · dsimp only
    rw [far_td.1, far_td.2]
    norm_num

/-- The example of C46 to C48 is whole: in single precision nothing is rounded. -/
example : (∀ i o, i < 6 → o < 6 →
    ∃ z : ℕ, ((line [0, 1, 5, 13, 20, 22] i o : ℤ) : ℝ) = z ∧ z ≤ 22) ∧ 4 * 6 * 22 ≤ 2 ^ 24 := by
  refine ⟨fun i o hi ho => ?_, by norm_num⟩
  have : ∀ i < 6, ∀ o < 6, ((line [0, 1, 5, 13, 20, 22] i o).toNat : ℤ) = line [0, 1, 5, 13, 20, 22] i o ∧
      (line [0, 1, 5, 13, 20, 22] i o).toNat ≤ 22 := by decide +kernel
  obtain ⟨e, hle⟩ := this i hi o ho
  refine ⟨_, ?_, hle⟩
  rw [← Int.cast_natCast, e]

end Verif.KMedoids
