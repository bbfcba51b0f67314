import Verif.Lemmas.PAMBuildRounding
import Verif.Props.PAMBuild
import Verif.Props.FasterPAMRounding

/-
Property C131: PAM BUILD with rounded sums.
-/

namespace Verif.KMedoids

open Spec Verif.Dendrogram
open Verif.Rounding (Rounding unit IsFloat)

variable {p : Nat}

theorem near_choice {u a b x y : ℝ} {j : Nat} (hx : Near u j x a x) (hy : Near u j y b y) (h : a ≤ b) :
    (2 - (1 + u) ^ j) * x ≤ (1 + u) ^ j * y := by
  have h1 := (abs_le.1 hx.1).1
  have h2 := (abs_le.1 hy.1).2
  linarith

/-- **C131**, first medoid.  The sums of the distances are rounded.  If none of them reaches `inf`, the sample
returned is the best single medoid up to the error of the sums, and the deviation returned with it is its total
deviation up to this error. -/
theorem C131_first (R : Rounding p) (inf : ℝ) (d : Nat → Nat → ℝ) (n : Nat) (hn : 0 < n) (hd : IsTable d n)
    (hinf : ∀ c, c < n → (1 + unit p) ^ n * td d n [c] < inf) :
    ∃ t m, firstMedoidR R.rnd inf d n = (t, m) ∧ m < n ∧
      |t - td d n [m]| ≤ ((1 + unit p) ^ n - 1) * td d n [m] ∧
      ∀ c, c < n → (2 - (1 + unit p) ^ n) * td d n [m] ≤ (1 + unit p) ^ n * td d n [c] := by
  obtain ⟨h1, -, h3⟩ := firstMedoidLoopR_spec R.rnd d n (List.range n) (inf, 0)
  rcases h3 with h3 | ⟨m, hm, h3⟩
  · have h4 := h1 0 (List.mem_range.2 hn)
    rw [h3] at h4
    have h5 := (rsum_near (relErr R) hd hn).abs_le
    exact absurd (((h4.trans (le_abs_self _)).trans h5).trans_lt (hinf 0 hn)) (lt_irrefl _)
  · have hm := List.mem_range.1 hm
    refine ⟨_, m, h3, hm, (rsum_near (relErr R) hd hm).1, fun c hc => ?_⟩
    have h4 := h1 c (List.mem_range.2 hc)
    rw [h3] at h4
    exact near_choice (rsum_near (relErr R) hd hm) (rsum_near (relErr R) hd hc) h4

/-- **C131**, one round.  The candidate added is a sample that is no medoid, and its reduction of the total
deviation over the samples other than itself is the smallest (see C52) up to the error of the sums; the number
added to the deviation is this reduction up to the same error. -/
theorem C131_round (R : Rounding p) (inf : ℝ) (d : Nat → Nat → ℝ) (n : Nat) (hd : IsTable d n) (ms : List Nat)
    (hne : ms ≠ []) (hms : ∀ m ∈ ms, m < n) (hfree : ∃ c, c < n ∧ c ∉ ms)
    (hinf : (1 + unit p) ^ (n + 1) * td d n ms < inf) :
    ∃ v m, buildRoundR R.rnd d n ms ((List.range n).map (nearest d ms)) (List.range n) (inf, 0) =
        some (v, m) ∧ m < n ∧ m ∉ ms ∧
      |v - (td d n ms - td d n (ms ++ [m]) - nearest d ms m)| ≤
        ((1 + unit p) ^ (n + 1) - 1) * (td d n ms - td d n (ms ++ [m]) - nearest d ms m) ∧
      ∀ c, c < n → c ∉ ms → (2 - (1 + unit p) ^ (n + 1)) * (td d n ms - td d n (ms ++ [m]) - nearest d ms m) ≤
        (1 + unit p) ^ (n + 1) * (td d n ms - td d n (ms ++ [c]) - nearest d ms c) := by
  obtain ⟨⟨v, m⟩, e, h1, h2, h3⟩ := buildRoundR_spec (relErr R) hd hne hms (List.range n) (inf, 0)
    (fun o => List.mem_range.1)
  rcases h3 with h3 | ⟨hm, hmm, h3⟩
  · obtain ⟨c, hc, hcm⟩ := hfree
    obtain ⟨y, hy, hny⟩ := h1 c (List.mem_range.2 hc) hcm
    rw [h3] at hy
    have hq : 0 ≤ (1 + unit p) ^ (n + 1) :=
      pow_nonneg (by linarith [Verif.Rounding.Rounding.unit_pos (p := p)]) _
    have h4 := mul_le_mul_of_nonneg_left (score_le hd hne hms c hc) hq
    exact absurd ((((hy.trans (le_abs_self _)).trans hny.abs_le).trans h4).trans_lt hinf) (lt_irrefl _)
  · refine ⟨v, m, e, List.mem_range.1 hm, hmm, h3.1, fun c hc hcm => ?_⟩
    obtain ⟨y, hy, hny⟩ := h1 c (List.mem_range.2 hc) hcm
    exact near_choice h3 hny hy

/-- The samples `ms` continue `pre` as the rounds of BUILD choose them, up to the factors `a` and `b`. -/
def ByRounds (d : Nat → Nat → ℝ) (n : Nat) (a b : ℝ) (pre ms : List Nat) : Prop :=
  ∀ j m, pre.length ≤ j → ms[j]? = some m → m ∉ ms.take j ∧ ∀ c, c < n → c ∉ ms.take j →
    a * (td d n (ms.take j) - td d n (ms.take j ++ [m]) - nearest d (ms.take j) m) ≤
      b * (td d n (ms.take j) - td d n (ms.take j ++ [c]) - nearest d (ms.take j) c)

theorem exists_free {n : Nat} {ms : List Nat} (h : ms.length < n) : ∃ c, c < n ∧ c ∉ ms := by
  by_contra hn
  have hsub : List.range n ⊆ ms := by
    intro c hc
    by_contra hcm
    exact hn ⟨c, List.mem_range.1 hc, hcm⟩
  have := (List.subperm_of_subset List.nodup_range hsub).length_le
  rw [List.length_range] at this
  omega

theorem snoc_facts {n : Nat} {ms : List Nat} {m : Nat} (hms : ∀ q ∈ ms, q < n) (hnd : ms.Nodup) (hm : m < n)
    (hmm : m ∉ ms) : (∀ q ∈ ms ++ [m], q < n) ∧ (ms ++ [m]).Nodup := by
  constructor
  · intro q hq
    rcases List.mem_append.1 hq with h | h
    · exact hms q h
    · simp only [List.mem_singleton] at h; rw [h]; exact hm
  · rw [List.nodup_append]
    refine ⟨hnd, List.nodup_singleton _, ?_⟩
    intro a ha b hb
    simp only [List.mem_singleton] at hb
    subst hb
    intro hab
    exact hmm (hab ▸ ha)

theorem build_roundsR (R : Rounding p) (inf vmax : ℝ) (d : Nat → Nat → ℝ) (n : Nat) (hd : IsTable d n)
    (hv : ∀ i o, i < n → o < n → d i o < vmax) : ∀ (r : Nat) (t : ℝ) (ms : List Nat),
    ms ≠ [] → (∀ m ∈ ms, m < n) → ms.Nodup → ms.length + r ≤ n →
    (1 + unit p) ^ (n + 1) * td d n ms < inf →
    ∃ t' ms', buildLoopR R.rnd inf vmax d n r t ms ((List.range n).map (nearest d ms)) =
        some (t', ms', (List.range n).map (nearest d ms')) ∧ ms <+: ms' ∧ ms'.length = ms.length + r ∧
      ms'.Nodup ∧ (∀ m ∈ ms', m < n) ∧
      ByRounds d n (2 - (1 + unit p) ^ (n + 1)) ((1 + unit p) ^ (n + 1)) ms ms' := by
  intro r
  have hq : 0 ≤ (1 + unit p) ^ (n + 1) :=
    pow_nonneg (by linarith [Verif.Rounding.Rounding.unit_pos (p := p)]) _
  induction r with
  | zero =>
    intro t ms _ h1 h2 _ _
    refine ⟨t, ms, rfl, List.prefix_rfl, rfl, h2, h1, fun j m hj e => ?_⟩
    have := lt_of_some e
    omega
  | succ r ih =>
    intro t ms hne hms hnd hlen hinf
    obtain ⟨v, m, e, hm, hmm, -, hbest⟩ := C131_round R inf d n hd ms hne hms (exists_free (by omega)) hinf
    obtain ⟨hms', hnd'⟩ := snoc_facts hms hnd hm hmm
    have e2 := nearestDistances_spec vmax d n (ms := ms ++ [m]) (by simp)
      (fun o ho q hq => hv q o (hms' q hq) ho)
    obtain ⟨t', ms', e3, hp, hl, hnd3, hms3, hby⟩ := ih (R.rnd (t + v)) (ms ++ [m]) (by simp) hms' hnd'
      (by simp only [List.length_append, List.length_cons, List.length_nil]; omega)
      (lt_of_le_of_lt (mul_le_mul_of_nonneg_left (td_snoc_le d n hne m) hq) hinf)
    refine ⟨t', ms', ?_, (List.prefix_append ms [m]).trans hp, ?_, hnd3, hms3, ?_⟩
    · simp only [buildLoopR, e, Option.bind_eq_bind, Option.bind_some, e2, e3]
    · rw [hl]
      simp only [List.length_append, List.length_cons, List.length_nil]
      omega
    · intro j q hj eq
      rcases Nat.lt_or_ge ms.length j with h | h
      · exact hby j q (by simp only [List.length_append, List.length_cons, List.length_nil]; omega) eq
      · obtain rfl : j = ms.length := by omega
        obtain ⟨rest, rfl⟩ := hp
        have et : (ms ++ [m] ++ rest).take ms.length = ms := by simp
        have eq' : q = m := by simpa using eq.symm
        rw [et, eq']
        exact ⟨hmm, hbest⟩

/-- **C131**, the whole of BUILD.  `k` distinct samples; the first is the best single medoid, and each later one
the choice of C52 in its round, up to the error of the sums; the distances returned are exactly those to the
nearest of the medoids. -/
theorem C131_build (R : Rounding p) (inf vmax : ℝ) (d : Nat → Nat → ℝ) (n k : Nat) (hd : IsTable d n)
    (hv : ∀ i o, i < n → o < n → d i o < vmax) (hk : 1 ≤ k) (hkn : k ≤ n)
    (hinf : ∀ c, c < n → (1 + unit p) ^ (n + 1) * td d n [c] < inf) :
    ∃ (t : ℝ) (ms : List Nat) (near : List ℝ), buildR R.rnd inf vmax d n k = some (t, ms, near) ∧
      ms.length = k ∧ ms.Nodup ∧ (∀ m ∈ ms, m < n) ∧
      (∃ m, ms[0]? = some m ∧ ∀ c, c < n → (2 - (1 + unit p) ^ n) * td d n [m] ≤
        (1 + unit p) ^ n * td d n [c]) ∧
      (∀ j m, 1 ≤ j → ms[j]? = some m → ∀ c, c < n → c ∉ ms.take j →
        (2 - (1 + unit p) ^ (n + 1)) *
          (td d n (ms.take j) - td d n (ms.take j ++ [m]) - nearest d (ms.take j) m) ≤
        (1 + unit p) ^ (n + 1) *
          (td d n (ms.take j) - td d n (ms.take j ++ [c]) - nearest d (ms.take j) c)) ∧
      near.length = n ∧
      ∀ o, o < n → ∃ m ∈ ms, near[o]? = some (d m o) ∧ ∀ m' ∈ ms, d m o ≤ d m' o := by
  have hu := Verif.Rounding.Rounding.unit_pos (p := p)
  have h0 : ∀ c, c < n → 0 ≤ td d n [c] := fun c hc =>
    (abs_nonneg _).trans (rsum_near (relErr R) hd hc).2
  obtain ⟨t0, m0, e0, hm, -, hbest⟩ := C131_first R inf d n (by omega) hd (fun c hc =>
    (mul_le_mul_of_nonneg_right (pow_le_pow_right₀ (by linarith) (by omega)) (h0 c hc)).trans_lt (hinf c hc))
  have e1 := nearestDistances_spec vmax d n (ms := [m0]) (by simp)
    (fun o ho q hq => by
      simp only [List.mem_singleton] at hq
      rw [hq]
      exact hv _ _ hm ho)
  obtain ⟨t', ms', e2, hp, hl, hnd, hms, hby⟩ := build_roundsR R inf vmax d n hd hv (k - 1) t0 [m0] (by simp)
    (by intro q hq; simp only [List.mem_singleton] at hq; rw [hq]; exact hm)
    (List.nodup_singleton _) (by simp only [List.length_cons, List.length_nil]; omega) (hinf _ hm)
  have hne : ms' ≠ [] := by rintro rfl; simp at hl; omega
  refine ⟨t', ms', (List.range n).map (nearest d ms'),
    by simp only [buildR, e0, e1, Option.bind_eq_bind, Option.bind_some, e2], ?_, hnd, hms, ⟨m0, ?_, hbest⟩,
    fun j m hj e => (hby j m hj e).2, by simp, ?_⟩
  · rw [hl]; simp only [List.length_cons, List.length_nil]; omega
  · obtain ⟨rest, rfl⟩ := hp
    rfl
  · intro o ho
    obtain ⟨⟨m, hm, e⟩, hle⟩ := nearest_mem d hne o
    refine ⟨m, hm, ?_, fun m' hm' => ?_⟩
    · rw [List.getElem?_map, List.getElem?_range ho, Option.map_some, e]
    · rw [← e]; exact hle m' hm'

/-- **C131**, whole distances.  If the distances are whole numbers of at most `D` and `k n D ≤ 2 ^ p`, nothing
is rounded: BUILD returns what it returns in exact arithmetic, for which C52 is proved. -/
theorem C131_whole (R : Rounding p) (inf vmax : ℝ) (d : Nat → Nat → ℝ) (n k D : Nat)
    (hd : ∀ i o, i < n → o < n → ∃ z : ℕ, d i o = z ∧ z ≤ D) (h0 : ∀ i, i < n → d i i = 0)
    (hv : ∀ i o, i < n → o < n → d i o < vmax) (hk : 1 ≤ k) (hkn : k ≤ n) (hD : k * (n * D) ≤ 2 ^ p)
    (hinf : ∀ c, c < n → td d n [c] < inf) :
    buildR R.rnd inf vmax d n k = build inf vmax d n k := by
  have hd' : IsTable d n := by
    refine ⟨fun i o hi ho => ?_, h0⟩
    obtain ⟨z, e, -⟩ := hd i o hi ho
    rw [e]
    positivity
  have hN : n * D ≤ 2 ^ p := (Nat.le_mul_of_pos_left _ (by omega)).trans hD
  have loop : ∀ (r : Nat) (t : ℝ) (a : Nat) (ms : List Nat), ms ≠ [] → (∀ m ∈ ms, m < n) → ms.Nodup →
      ms.length + r ≤ n → td d n ms < inf → Grid a t → a + r * (n * D) ≤ 2 ^ p →
      buildLoopR R.rnd inf vmax d n r t ms ((List.range n).map (nearest d ms)) =
        buildLoop inf vmax d n r t ms ((List.range n).map (nearest d ms)) := by
    intro r
    induction r with
    | zero => intros; rfl
    | succ r ih =>
      intro t a ms hne hms hnd hlen hinf ht ha
      rw [Nat.add_mul, Nat.one_mul] at ha
      obtain ⟨v, m, e, hm, hmm, ev, -⟩ := C52_round inf d n hd' ms hne hms (exists_free (by omega)) hinf
      obtain ⟨hms', hnd'⟩ := snoc_facts hms hnd hm hmm
      have e2 := nearestDistances_spec vmax d n (ms := ms ++ [m]) (by simp)
        (fun o ho q hq => hv q o (hms' q hq) ho)
      have hgv : Grid (n * D) v := by
        rw [ev]
        exact score_grid hd' hd hne hms hm
      have hgt : Grid (a + n * D) (t + v) := by
        obtain ⟨z, rfl, hz⟩ := ht
        obtain ⟨w, rfl, hw⟩ := hgv
        refine ⟨z + w, by push_cast; rfl, ?_⟩
        have := abs_add_le z w
        push_cast at *
        linarith
      simp only [buildLoopR, buildLoop, buildRoundR_eq (exact_whole R) hN hd hne hms (List.range n) (inf, 0)
        (fun c hc => List.mem_range.1 hc), e, Option.bind_eq_bind, Option.bind_some, e2,
        exact_whole R _ (hgt.mono (by omega))]
      exact ih (t + v) (a + n * D) (ms ++ [m]) (by simp) hms' hnd'
        (by simp only [List.length_append, List.length_cons, List.length_nil]; omega)
        (lt_of_le_of_lt (td_snoc_le d n hne m) hinf) hgt (by omega)
  have ef : firstMedoidR R.rnd inf d n = firstMedoid inf d n :=
    firstMedoidLoopR_eq (exact_whole R) hN hd (List.range n) (inf, 0) (fun c hc => List.mem_range.1 hc)
  obtain ⟨hm, et, -⟩ := C52_first_partial inf d n (by omega) hinf
  have e1 := nearestDistances_spec vmax d n (ms := [(firstMedoid inf d n).2]) (by simp)
    (fun o ho q hq => by
      simp only [List.mem_singleton] at hq
      rw [hq]
      exact hv _ _ hm ho)
  have hg : Grid (n * D) (firstMedoid inf d n).1 := by
    rw [et, td_single, total, ← (rsum_eq (exact_whole R) hN hd hm).1]
    exact (rsum_eq (exact_whole R) hN hd hm).2
  simp only [buildR, build, ef, e1, Option.bind_eq_bind, Option.bind_some]
  refine loop (k - 1) _ (n * D) _ (by simp)
    (by intro q hq; simp only [List.mem_singleton] at hq; rw [hq]; exact hm)
    (List.nodup_singleton _) (by simp only [List.length_cons, List.length_nil]; omega) (hinf _ hm) hg ?_
  obtain ⟨j, rfl⟩ : ∃ j, k = j + 1 := ⟨k - 1, by omega⟩
  rw [Nat.add_mul, Nat.one_mul] at hD
  rw [Nat.add_sub_cancel]
  omega

/-! ### Examples -/

/-- Five samples: 1 is far away, 2, 3 and 4 coincide at distance 1 of 0. -/
def pileTable : Nat → Nat → ℤ := fun i j =>
  ((([[0, 67108864, 1, 1, 1], [67108864, 0, 67108864, 67108864, 67108864], [1, 67108864, 0, 0, 0],
      [1, 67108864, 0, 0, 0], [1, 67108864, 0, 0, 0]] : List (List ℤ)).getD i []).getD j 0)

example : (∀ i < 5, ∀ j < 5, pileTable i j = pileTable j i) ∧ (∀ i < 5, pileTable i i = 0) ∧
    ∀ i < 5, ∀ j < 5, ∀ k < 5, pileTable i k ≤ pileTable i j + pileTable j k := by
  decide +kernel

/-- The table as real numbers. -/
noncomputable def pileR : Nat → Nat → ℝ := fun i j => pileTable i j

theorem rnd_pile (R : Rounding 24) : R.rnd 67108865 = 67108864 := by
  have hf : IsFloat 24 67108864 := ⟨1, 26, by norm_num, by norm_num⟩
  have h := R.nearest 67108865 67108864 hf
  rw [show |(67108864 : ℝ) - 67108865| = 1 by norm_num, abs_le] at h
  obtain ⟨m, e, hm, hx⟩ := R.isFloat 67108865
  by_cases he : 3 ≤ e
  · obtain ⟨k, hk⟩ := Int.eq_ofNat_of_zero_le (show 0 ≤ e - 3 by omega)
    obtain rfl : e = 3 + (k : ℤ) := by omega
    have hx' : R.rnd 67108865 = ((m * 2 ^ k : ℤ) : ℝ) * 8 := by
      rw [hx, zpow_add₀ (by norm_num)]
      push_cast
      rw [zpow_natCast]
      norm_num
      ring
    rw [hx'] at h ⊢
    generalize m * 2 ^ k = z at h ⊢
    have h1 : (8388608 : ℝ) ≤ z := by linarith
    have h2 : (z : ℝ) < 8388609 := by linarith
    have h1' : 8388608 ≤ z := by exact_mod_cast h1
    have h2' : z < 8388609 := by exact_mod_cast h2
    have : z = 8388608 := by omega
    subst this
    norm_num
  · have h1 : (2 : ℝ) ^ e ≤ 2 ^ (2 : ℤ) := zpow_le_zpow_right₀ (by norm_num) (by omega)
    have h2 : (m : ℝ) ≤ 2 ^ 24 := by exact_mod_cast (abs_le.1 hm).2
    have h3 : (m : ℝ) * 2 ^ e ≤ 2 ^ 24 * 2 ^ (2 : ℤ) :=
      (mul_le_mul_of_nonneg_right h2 (by positivity)).trans (mul_le_mul_of_nonneg_left h1 (by positivity))
    rw [← hx] at h3
    norm_num at h3
    linarith

theorem pile_sums (R : Rounding 24) : rsum R.rnd pileR 5 0 = 67108864 ∧ rsum R.rnd pileR 5 1 = 268435456 ∧
    rsum R.rnd pileR 5 2 = 67108864 ∧ rsum R.rnd pileR 5 3 = 67108864 ∧
    rsum R.rnd pileR 5 4 = 67108864 := by
  have r0 : R.rnd 0 = 0 := rnd_whole R 0 0 (by norm_num) (by norm_num)
  have r1 : R.rnd 1 = 1 := rnd_whole R 1 0 (by norm_num) (by norm_num)
  have r2 : R.rnd 67108864 = 67108864 := rnd_whole R 1 26 (by norm_num) (by norm_num)
  have r3 : R.rnd 134217728 = 134217728 := rnd_whole R 1 27 (by norm_num) (by norm_num)
  have r4 : R.rnd 201326592 = 201326592 := rnd_whole R 3 26 (by norm_num) (by norm_num)
  have r5 : R.rnd 268435456 = 268435456 := rnd_whole R 1 28 (by norm_num) (by norm_num)
  have a1 : (67108864 : ℝ) + 1 = 67108865 := by norm_num
  have a2 : (67108864 : ℝ) + 67108864 = 134217728 := by norm_num
  have a3 : (134217728 : ℝ) + 67108864 = 201326592 := by norm_num
  have a4 : (201326592 : ℝ) + 67108864 = 268435456 := by norm_num
  have a5 : (1 : ℝ) + 67108864 = 67108865 := by norm_num
  have e5 : List.range 5 = [0, 1, 2, 3, 4] := rfl
  refine ⟨?_, ?_, ?_, ?_, ?_⟩
  all_goals
    simp [rsum, e5, pileR, pileTable, r0, r1, r2, r3, r4, r5, a1, a2, a3, a4, a5, rnd_pile R]

/-- **C131**: in single precision the first medoid need not be the best one.  The sums of the samples 0, 2, 3
and 4 all round to the same number, so that sample 0 is kept, of total deviation 2^26 + 3; that of sample 2 is
2^26 + 1. -/
theorem C131_first_counterexample (R : Rounding 24) (inf : ℝ) (hinf : 67108864 < inf) :
    (∀ i o, i < 5 → o < 5 → IsFloat 24 (pileR i o)) ∧
    firstMedoidR R.rnd inf pileR 5 = (67108864, 0) ∧
    td pileR 5 [0] = 67108867 ∧ td pileR 5 [2] = 67108865 := by
  have e5 : List.range 5 = [0, 1, 2, 3, 4] := rfl
  refine ⟨fun i o hi ho => ?_, ?_, ?_, ?_⟩
  · have h : ∀ i < 5, ∀ o < 5, pileTable i o = 67108864 ∨ |pileTable i o| ≤ 2 ^ 24 := by decide +kernel
    rcases h i hi o ho with h | h
    · exact ⟨1, 26, by norm_num, by rw [pileR, h]; norm_num⟩
    · exact isFloat_int h
  · obtain ⟨s0, s1, s2, s3, s4⟩ := pile_sums R
    have n1 : ¬ (268435456 : ℝ) < 67108864 := by norm_num
    simp only [firstMedoidR, e5, firstMedoidLoopR, s0, s1, s2, s3, s4, if_pos hinf, if_neg n1, lt_irrefl, if_false]
  · rw [td_single, total, e5]
    simp [pileR, pileTable]
    norm_num
  · rw [td_single, total, e5]
    simp [pileR, pileTable]
    norm_num

/-- The hypotheses of `C131_build` hold for this table. -/
example (R : Rounding 24) : ∃ t ms near, buildR R.rnd (2 ^ 40) (2 ^ 40) pileR 5 3 = some (t, ms, near) ∧
    ms.length = 3 ∧ ms.Nodup := by
  have h1 : ∀ i < 5, ∀ o < 5, 0 ≤ pileTable i o ∧ pileTable i o ≤ 67108864 := by decide +kernel
  have h2 : ∀ i < 5, pileTable i i = 0 := by decide +kernel
  have h0 : ∀ i o, i < 5 → o < 5 → 0 ≤ pileR i o ∧ pileR i o ≤ 67108864 := by
    intro i o hi ho
    unfold pileR
    exact ⟨by exact_mod_cast (h1 i hi o ho).1, by exact_mod_cast (h1 i hi o ho).2⟩
  have hd : IsTable pileR 5 :=
    ⟨fun i o hi ho => (h0 i o hi ho).1, fun i hi => by rw [pileR, h2 i hi]; simp⟩
  have hu : unit 24 ≤ 1 := unit_le_one
  have hu0 := Verif.Rounding.Rounding.unit_pos (p := 24)
  have hq : (1 + unit 24) ^ (5 + 1) ≤ 2 ^ (5 + 1) := pow_le_pow_left₀ (by linarith) (by linarith) _
  have ht : ∀ c, c < 5 → 0 ≤ td pileR 5 [c] ∧ td pileR 5 [c] ≤ 5 * 67108864 := by
    intro c hc
    have a0 := h0 c 0 hc (by norm_num)
    have a1 := h0 c 1 hc (by norm_num)
    have a2 := h0 c 2 hc (by norm_num)
    have a3 := h0 c 3 hc (by norm_num)
    have a4 := h0 c 4 hc (by norm_num)
    rw [td_single, total, show List.range 5 = [0, 1, 2, 3, 4] from rfl]
    simp only [List.map_cons, List.map_nil, List.sum_cons, List.sum_nil]
    constructor <;> linarith
  obtain ⟨t, ms, near, e, a, b, -⟩ := C131_build R (2 ^ 40) (2 ^ 40) pileR 5 3 hd
    (fun i o hi ho => (h0 i o hi ho).2.trans_lt (by norm_num)) (by norm_num) (by norm_num) (fun c hc => by
      have := mul_le_mul hq (ht c hc).2 (ht c hc).1 (by norm_num)
      exact this.trans_lt (by norm_num))
  exact ⟨t, ms, near, e, a, b⟩

/-- The hypotheses of `C131_whole` hold for this table in double precision. -/
example (R : Rounding 53) : buildR R.rnd (2 ^ 40) (2 ^ 40) pileR 5 3 = build (2 ^ 40) (2 ^ 40) pileR 5 3 := by
  have h1 : ∀ i < 5, ∀ o < 5, 0 ≤ pileTable i o ∧ pileTable i o ≤ 67108864 := by decide +kernel
  have h2 : ∀ i < 5, pileTable i i = 0 := by decide +kernel
  have hb : ∀ i o, i < 5 → o < 5 → pileR i o ≤ 67108864 := by
    intro i o hi ho
    unfold pileR
    exact_mod_cast (h1 i hi o ho).2
  refine C131_whole R _ _ pileR 5 3 67108864 (fun i o hi ho => ?_) (fun i hi => by rw [pileR, h2 i hi]; simp)
    (fun i o hi ho => (hb i o hi ho).trans_lt (by norm_num)) (by norm_num) (by norm_num) (by norm_num)
    (fun c hc => ?_)
  · obtain ⟨z, hz⟩ := Int.eq_ofNat_of_zero_le (h1 i hi o ho).1
    refine ⟨z, by rw [pileR, hz]; simp, ?_⟩
    have := (h1 i hi o ho).2
    omega
  · have a0 := hb c 0 hc (by norm_num)
    have a1 := hb c 1 hc (by norm_num)
    have a2 := hb c 2 hc (by norm_num)
    have a3 := hb c 3 hc (by norm_num)
    have a4 := hb c 4 hc (by norm_num)
    rw [td_single, total, show List.range 5 = [0, 1, 2, 3, 4] from rfl]
    simp only [List.map_cons, List.map_nil, List.sum_cons, List.sum_nil]
    norm_num
    linarith

end Verif.KMedoids
