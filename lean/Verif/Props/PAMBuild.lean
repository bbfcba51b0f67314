import Verif.Lemmas.PAMBuild
import Verif.Props.FasterPAM

/-
Property C52: PAM BUILD.
-/

namespace Verif.KMedoids

open Spec

section

variable {K : Type} [LinearOrder K] [CommRing K] [IsStrictOrderedRing K]

/-- **C52**, first medoid (partial: the first round only; `inf` is greater than the sums of the
distances, which is false for integral data types, for which `common::infinity` is 0).  The first medoid
is the best single medoid and the deviation returned with it is its total deviation. -/
theorem C52_first_partial (inf : K) (d : Nat → Nat → K) (n : Nat) (hn : 0 < n)
    (hinf : ∀ c, c < n → td d n [c] < inf) :
    (firstMedoid inf d n).2 < n ∧ (firstMedoid inf d n).1 = td d n [(firstMedoid inf d n).2] ∧
      ∀ c, c < n → td d n [(firstMedoid inf d n).2] ≤ td d n [c] := by
  obtain ⟨h1, h2, h3⟩ := firstMedoidLoop_spec d n (List.range n) (inf, 0)
  unfold firstMedoid
  rcases h3 with h3 | ⟨c, hc, h3⟩
  · have := h1 0 (List.mem_range.2 hn)
    rw [h3, ← td_single] at this
    exact absurd (hinf 0 hn) (not_lt.2 this)
  · rw [h3] at h1 ⊢
    refine ⟨List.mem_range.1 hc, (td_single d n c).symm, fun q hq => ?_⟩
    rw [td_single, td_single]
    exact h1 q (List.mem_range.2 hq)

/-- **C52**, one further round, exactly what the code does.  The candidate selected is, among the
samples that are not medoids, the one with the *smallest* reduction of the total deviation of the
samples other than the candidate. -/
theorem C52_round (inf : K) (d : Nat → Nat → K) (n : Nat) (hd : IsTable d n) (ms : List Nat)
    (hne : ms ≠ []) (hms : ∀ m ∈ ms, m < n) (hfree : ∃ c, c < n ∧ c ∉ ms)
    (hinf : td d n ms < inf) :
    ∃ v m, buildRound d n ms ((List.range n).map (nearest d ms)) (List.range n) (inf, 0) =
        some (v, m) ∧ m < n ∧ m ∉ ms ∧
      v = td d n ms - td d n (ms ++ [m]) - nearest d ms m ∧
      ∀ c, c < n → c ∉ ms → td d n ms - td d n (ms ++ [m]) - nearest d ms m ≤
        td d n ms - td d n (ms ++ [c]) - nearest d ms c := by
  obtain ⟨r, e, h1, h2, h3⟩ := buildRound_spec hd hne hms (List.range n) (inf, 0)
    (fun o => List.mem_range.1)
  rcases h3 with h3 | ⟨c, hc, hcm, h3⟩
  · obtain ⟨c, hc, hcm⟩ := hfree
    have a := h1 c (List.mem_range.2 hc) hcm
    have b := score_le hd hne hms c hc
    rw [h3] at a
    exact absurd (lt_of_le_of_lt (le_trans a b) hinf) (lt_irrefl _)
  · rw [h3] at e h1
    exact ⟨_, _, e, List.mem_range.1 hc, hcm, rfl, fun q hq hqm => h1 q (List.mem_range.2 hq) hqm⟩

theorem build_rounds (inf vmax : K) (d : Nat → Nat → K) (n : Nat) (hd : IsTable d n)
    (hv : ∀ i o, i < n → o < n → d i o < vmax) : ∀ (r : Nat) (t : K) (ms : List Nat),
    ms ≠ [] → (∀ m ∈ ms, m < n) → ms.Nodup → ms.length + r ≤ n → td d n ms < inf →
    ∃ t' ms', buildLoop inf vmax d n r t ms ((List.range n).map (nearest d ms)) =
        some (t', ms', (List.range n).map (nearest d ms')) ∧ ms <+: ms' ∧ ms'.length = ms.length + r ∧
      ms'.Nodup ∧ (∀ m ∈ ms', m < n) := by
  intro r
  induction r with
  | zero => intro t ms _ h1 h2 _ _; exact ⟨t, ms, rfl, List.prefix_rfl, rfl, h2, h1⟩
  | succ r ih =>
    intro t ms hne hms hnd hlen hinf
    have hfree : ∃ c, c < n ∧ c ∉ ms := by
      by_contra hn
      have hsub : List.range n ⊆ ms := by
        intro c hc
        by_contra hcm
        exact hn ⟨c, List.mem_range.1 hc, hcm⟩
      have := (List.subperm_of_subset List.nodup_range hsub).length_le
      rw [List.length_range] at this
      omega
    obtain ⟨v, m, e, hm, hmm, -, -⟩ := C52_round inf d n hd ms hne hms hfree hinf
    have hms' : ∀ q ∈ ms ++ [m], q < n := by
      intro q hq
      rcases List.mem_append.1 hq with h | h
      · exact hms q h
      · simp only [List.mem_singleton] at h; rw [h]; exact hm
    have e2 := nearestDistances_spec vmax d n (ms := ms ++ [m]) (by simp)
      (fun o ho q hq => hv q o (hms' q hq) ho)
    have hnd' : (ms ++ [m]).Nodup := by
      rw [List.nodup_append]
      refine ⟨hnd, List.nodup_singleton _, ?_⟩
      intro a ha b hb
      simp only [List.mem_singleton] at hb
      subst hb
      intro hab
      exact hmm (hab ▸ ha)
    obtain ⟨t', ms', e3, hp, hl, hnd3, hms3⟩ := ih (t + v) (ms ++ [m]) (by simp) hms' hnd'
      (by simp only [List.length_append, List.length_cons, List.length_nil]; omega)
      (lt_of_le_of_lt (td_snoc_le d n hne m) hinf)
    refine ⟨t', ms', ?_, (List.prefix_append ms [m]).trans hp, ?_, hnd3, hms3⟩
    · simp only [buildLoop, e, Option.bind_eq_bind, Option.bind_some, e2, e3]
    · rw [hl]
      simp only [List.length_append, List.length_cons, List.length_nil]
      omega

/-- **C52** (partial: what remains of the claim; which candidate a round adds and the deviation reported
are wrong, see the counterexamples).  `build` returns `k` distinct samples, the first of which is the
best single medoid, and for every sample the distance to the nearest of them. -/
theorem C52_build_partial (inf vmax : K) (d : Nat → Nat → K) (n k : Nat) (hd : IsTable d n)
    (hv : ∀ i o, i < n → o < n → d i o < vmax) (hk : 1 ≤ k) (hkn : k ≤ n)
    (hinf : ∀ c, c < n → td d n [c] < inf) :
    ∃ (t : K) (ms : List Nat) (near : List K), build inf vmax d n k = some (t, ms, near) ∧
      ms.length = k ∧ ms.Nodup ∧ (∀ m ∈ ms, m < n) ∧
      (∃ m, ms[0]? = some m ∧ ∀ c, c < n → td d n [m] ≤ td d n [c]) ∧
      near.length = n ∧
      ∀ o, o < n → ∃ m ∈ ms, near[o]? = some (d m o) ∧ ∀ m' ∈ ms, d m o ≤ d m' o := by
  obtain ⟨hm, -, hbest⟩ := C52_first_partial inf d n (by omega) hinf
  have e1 := nearestDistances_spec vmax d n (ms := [(firstMedoid inf d n).2]) (by simp)
    (fun o ho q hq => by
      simp only [List.mem_singleton] at hq
      rw [hq]
      exact hv _ _ hm ho)
  obtain ⟨t', ms', e2, hp, hl, hnd, hms⟩ := build_rounds inf vmax d n hd hv (k - 1)
    (firstMedoid inf d n).1 [(firstMedoid inf d n).2] (by simp)
    (by intro q hq; simp only [List.mem_singleton] at hq; rw [hq]; exact hm)
    (List.nodup_singleton _) (by simp only [List.length_cons, List.length_nil]; omega) (hinf _ hm)
  have hne : ms' ≠ [] := by rintro rfl; simp at hl; omega
  refine ⟨t', ms', (List.range n).map (nearest d ms'), by simp only [build, e1, Option.bind_eq_bind, Option.bind_some, e2], ?_, hnd, hms,
    ⟨(firstMedoid inf d n).2, ?_, hbest⟩, by simp, ?_⟩
  · rw [hl]; simp only [List.length_cons, List.length_nil]; omega
  · obtain ⟨rest, rfl⟩ := hp
    rfl
  · intro o ho
    obtain ⟨⟨m, hm, e⟩, hle⟩ := nearest_mem d hne o
    refine ⟨m, hm, ?_, fun m' hm' => ?_⟩
    · rw [List.getElem?_map, List.getElem?_range ho, Option.map_some, e]
    · rw [← e]; exact hle m' hm'

end

/-- The hypotheses hold for six points on a line. -/
example : IsTable (line [0, 1, 5, 13, 20, 22]) 6 ∧
    (∀ i < 6, ∀ o < 6, line [0, 1, 5, 13, 20, 22] i o < 1000) ∧
    (∀ c < 6, td (line [0, 1, 5, 13, 20, 22]) 6 [c] < 1000) ∧
    (build 1000 1000 (line [0, 1, 5, 13, 20, 22]) 6 3).map (fun r => r.2.1) = some [2, 0, 1] :=
  ⟨example_table.1, by decide +kernel, by decide +kernel, by decide +kernel⟩

/-- **C52** is false: the second round adds the sample with the smallest reduction.  Six points on a
line, the first medoid is at 5 with total deviation 49.  The second one chosen is at 0, which leaves a
total deviation of 41 when the sample at 20 leaves 18. -/
theorem C52_not_greedy_counterexample :
    let d := line [0, 1, 5, 13, 20, 22]
    (build 1000 1000 d 6 2).map (fun r => r.2.1) = some [2, 0] ∧
      td d 6 [2] = 49 ∧ td d 6 [2, 0] = 41 ∧ td d 6 [2, 4] = 18 := by
  decide +kernel

/-- **C52** is false: the reduction is added to the deviation reported. -/
theorem C52_deviation_counterexample :
    let d := line [0, 1, 5, 13, 20, 22]
    (build 1000 1000 d 6 2).map (fun r => r.1) = some 52 ∧ td d 6 [2, 0] = 41 := by
  decide +kernel

/-- **C52** is false for integral data types, for which `common::infinity` is 0: the first medoid is
always the first sample and the deviation reported is 0. -/
theorem C52_integral_counterexample :
    let d := line [0, 1, 5, 13, 20, 22]
    firstMedoid 0 d 6 = (0, 0) ∧ td d 6 [0] = 61 ∧ td d 6 [2] = 49 := by
  decide +kernel

end Verif.KMedoids
