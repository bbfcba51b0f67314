import Verif.Lemmas.FasterPAM

/-
Lemmas on kmedoids/PAMBuild.hpp.
-/

namespace Verif.KMedoids

open Spec

set_option linter.unusedSectionVars false

variable {K : Type} [LinearOrder K] [CommRing K] [IsStrictOrderedRing K]

/-- Sum of the distances of all samples to the sample `c`. -/
def total (d : Nat → Nat → K) (n c : Nat) : K := ((List.range n).map fun o => d c o).sum

theorem firstMedoidLoop_spec (d : Nat → Nat → K) (n : Nat) (cs : List Nat) : ∀ acc : K × Nat,
    (∀ c ∈ cs, (firstMedoidLoop d n cs acc).1 ≤ total d n c) ∧
    (firstMedoidLoop d n cs acc).1 ≤ acc.1 ∧
    (firstMedoidLoop d n cs acc = acc ∨
      ∃ c ∈ cs, firstMedoidLoop d n cs acc = (total d n c, c)) := by
  induction cs with
  | nil => intro acc; simp [firstMedoidLoop]
  | cons c cs ih =>
    rintro ⟨v, m⟩
    rw [firstMedoidLoop]
    obtain ⟨h1, h2, h3⟩ := ih (if ((List.range n).map fun o => d c o).sum < v then
      (((List.range n).map fun o => d c o).sum, c) else (v, m))
    dsimp only
    split at h1
    · rename_i hlt
      rw [if_pos hlt] at h2 h3
      rw [if_pos hlt]
      dsimp only at h2
      refine ⟨?_, le_trans h2 hlt.le, ?_⟩
      · intro q hq
        rcases List.mem_cons.1 hq with rfl | hq
        · exact h2
        · exact h1 q hq
      · rcases h3 with h3 | ⟨q, hq, h3⟩
        · exact Or.inr ⟨c, by simp, h3⟩
        · exact Or.inr ⟨q, by simp [hq], h3⟩
    · rename_i hlt
      rw [if_neg hlt] at h2 h3
      rw [if_neg hlt]
      refine ⟨?_, h2, ?_⟩
      · intro q hq
        rcases List.mem_cons.1 hq with rfl | hq
        · exact le_trans h2 (not_lt.1 hlt)
        · exact h1 q hq
      · rcases h3 with h3 | ⟨q, hq, h3⟩
        · exact Or.inl h3
        · exact Or.inr ⟨q, by simp [hq], h3⟩

/-- Distance of the sample `o` to the nearest medoid. -/
def nearest (d : Nat → Nat → K) (ms : List Nat) (o : Nat) : K := ((dists d ms o).min?).getD 0

theorem nearest_mem (d : Nat → Nat → K) {ms : List Nat} (hne : ms ≠ []) (o : Nat) :
    (∃ m ∈ ms, nearest d ms o = d m o) ∧ ∀ m ∈ ms, nearest d ms o ≤ d m o := by
  unfold nearest
  have hne' : dists d ms o ≠ [] := by simpa [dists] using hne
  obtain ⟨x, hx⟩ := Option.ne_none_iff_exists'.1 (fun h => hne' (List.min?_eq_none_iff.1 h))
  rw [hx, Option.getD_some]
  rw [List.min?_eq_some_iff] at hx
  constructor
  · have := hx.1
    simp only [dists, List.mem_map] at this
    obtain ⟨m, hm, rfl⟩ := this
    exact ⟨m, hm, rfl⟩
  · intro m hm
    exact hx.2 _ (by simp only [dists, List.mem_map]; exact ⟨m, hm, rfl⟩)

theorem nearest_snoc (d : Nat → Nat → K) {ms : List Nat} (hne : ms ≠ []) (c o : Nat) :
    nearest d (ms ++ [c]) o = min (nearest d ms o) (d c o) := by
  obtain ⟨⟨m, hm, e⟩, h⟩ := nearest_mem d hne o
  obtain ⟨⟨m', hm', e'⟩, h'⟩ := nearest_mem d (ms := ms ++ [c]) (by simp) o
  apply le_antisymm
  · apply le_min
    · rw [e]; exact h' m (by simp [hm])
    · exact h' c (by simp)
  · rw [e']
    rcases List.mem_append.1 hm' with hq | hq
    · exact le_trans (min_le_left _ _) (h m' hq)
    · simp only [List.mem_singleton] at hq
      subst hq
      exact min_le_right _ _

theorem nearestDistances_spec (vmax : K) (d : Nat → Nat → K) (n : Nat) {ms : List Nat} (hne : ms ≠ [])
    (hv : ∀ o, o < n → ∀ m ∈ ms, d m o < vmax) :
    nearestDistances vmax d n ms = some ((List.range n).map (nearest d ms)) := by
  rw [nearestDistances, if_neg hne]
  congr 1
  apply List.map_congr_left
  intro o ho
  have ho := List.mem_range.1 ho
  obtain ⟨h, -⟩ := first_spec vmax (dists d ms o) (by simpa [dists] using hne) (by
    intro v hv'
    simp only [dists, List.mem_map] at hv'
    obtain ⟨m, hm, rfl⟩ := hv'
    exact hv o ho m hm)
  unfold nearest
  rw [min_smallest h]
  rfl

/-- What the round computes for a candidate. -/
def score (d : Nat → Nat → K) (n : Nat) (ms : List Nat) (c : Nat) : K :=
  td d n ms - td d n (ms ++ [c]) - nearest d ms c

theorem buildGain_loop (d : Nat → Nat → K) (n : Nat) (ms : List Nat) (c : Nat) (os : List Nat) :
    ∀ acc : K, (∀ o ∈ os, o < n) →
    buildGain d ms ((List.range n).map (nearest d ms)) c os acc =
      some (acc + (os.map fun o => if c ≠ o ∧ o ∉ ms then
        nearest d ms o - min (nearest d ms o) (d c o) else 0).sum) := by
  induction os with
  | nil => intro acc _; simp [buildGain]
  | cons o os ih =>
    intro acc h
    have ho := h o (by simp)
    have h' : ∀ q ∈ os, q < n := fun q hq => h q (by simp [hq])
    rw [buildGain, List.map_cons, List.sum_cons]
    split
    · rw [List.getElem?_map, List.getElem?_range ho]
      simp only [Option.map_some, Option.bind_eq_bind, Option.bind_some]
      rw [ih _ h']
      congr 1
      split
      · rename_i hlt
        rw [min_eq_right hlt.le]
        ring
      · rename_i hlt
        rw [min_eq_left (not_lt.1 hlt)]
        ring
    · rw [ih _ h', zero_add]

theorem sum_single (n c : Nat) (hc : c < n) (x : K) :
    ((List.range n).map fun o => if c = o then x else 0).sum = x := by
  induction n with
  | zero => omega
  | succ n ih =>
    rw [List.range_succ, List.map_append, List.sum_append]
    by_cases h : c = n
    · subst h
      have : ((List.range c).map fun o => if c = o then x else 0).sum = 0 := by
        apply List.sum_eq_zero
        intro y hy
        simp only [List.mem_map, List.mem_range] at hy
        obtain ⟨o, ho, rfl⟩ := hy
        rw [if_neg (by omega)]
      rw [this]
      simp
    · rw [ih (by omega)]
      simp [h]

theorem buildGain_spec {d : Nat → Nat → K} {n : Nat} (hd : IsTable d n) {ms : List Nat} (hne : ms ≠ [])
    (hms : ∀ m ∈ ms, m < n) {c : Nat} (hc : c < n) :
    buildGain d ms ((List.range n).map (nearest d ms)) c (List.range n) 0 = some (score d n ms c) := by
  rw [buildGain_loop d n ms c _ _ (fun o => List.mem_range.1), zero_add]
  congr 1
  have key : ∀ o ∈ List.range n, (if c ≠ o ∧ o ∉ ms then
      nearest d ms o - min (nearest d ms o) (d c o) else 0) =
      nearest d ms o - nearest d (ms ++ [c]) o - if c = o then nearest d ms c else 0 := by
    intro o ho
    have ho := List.mem_range.1 ho
    obtain ⟨⟨m, hm, e⟩, hle⟩ := nearest_mem d hne o
    have hnn : 0 ≤ nearest d ms o := by rw [e]; exact hd.1 m o (hms m hm) ho
    rw [nearest_snoc d hne]
    by_cases hco : c = o
    · subst hco
      rw [if_neg (by simp), if_pos rfl, hd.2 c ho, min_eq_right hnn]
      ring
    · rw [if_neg hco]
      by_cases hom : o ∈ ms
      · have : nearest d ms o = 0 := le_antisymm (by
          have := hle o hom
          rw [hd.2 o ho] at this
          exact this) hnn
        rw [if_neg (by simp [hom]), this, min_eq_left (hd.1 c o hc ho)]
        ring
      · rw [if_pos ⟨hco, hom⟩]
        ring
  rw [List.map_congr_left key]
  rw [show (fun o => nearest d ms o - nearest d (ms ++ [c]) o - if c = o then nearest d ms c else 0) =
    fun o => (fun o => nearest d ms o - nearest d (ms ++ [c]) o) o -
      (fun o => if c = o then nearest d ms c else 0) o from rfl, sum_sub_map, sum_single n c hc,
    sum_sub_map]
  rfl

theorem buildRound_spec {d : Nat → Nat → K} {n : Nat} (hd : IsTable d n) {ms : List Nat} (hne : ms ≠ [])
    (hms : ∀ m ∈ ms, m < n) (cs : List Nat) : ∀ acc : K × Nat, (∀ c ∈ cs, c < n) →
    ∃ r, buildRound d n ms ((List.range n).map (nearest d ms)) cs acc = some r ∧
      (∀ c ∈ cs, c ∉ ms → r.1 ≤ score d n ms c) ∧ r.1 ≤ acc.1 ∧
      (r = acc ∨ ∃ c ∈ cs, c ∉ ms ∧ r = (score d n ms c, c)) := by
  induction cs with
  | nil => intro acc _; exact ⟨acc, rfl, by simp, le_refl _, Or.inl rfl⟩
  | cons c cs ih =>
    rintro ⟨v, m⟩ h
    have h' : ∀ q ∈ cs, q < n := fun q hq => h q (by simp [hq])
    rw [buildRound]
    split
    · rename_i hcm
      rw [buildGain_spec hd hne hms (h c (by simp))]
      simp only [Option.bind_eq_bind, Option.bind_some]
      split
      · rename_i hlt
        obtain ⟨r, e, h1, h2, h3⟩ := ih (score d n ms c, c) h'
        refine ⟨r, e, ?_, le_trans h2 hlt.le, ?_⟩
        · intro q hq hqm
          rcases List.mem_cons.1 hq with rfl | hq
          · exact h2
          · exact h1 q hq hqm
        · rcases h3 with h3 | ⟨q, hq, hqm, h3⟩
          · exact Or.inr ⟨c, by simp, hcm, h3⟩
          · exact Or.inr ⟨q, by simp [hq], hqm, h3⟩
      · rename_i hlt
        obtain ⟨r, e, h1, h2, h3⟩ := ih (v, m) h'
        refine ⟨r, e, ?_, h2, ?_⟩
        · intro q hq hqm
          rcases List.mem_cons.1 hq with rfl | hq
          · exact le_trans h2 (not_lt.1 hlt)
          · exact h1 q hq hqm
        · rcases h3 with h3 | ⟨q, hq, hqm, h3⟩
          · exact Or.inl h3
          · exact Or.inr ⟨q, by simp [hq], hqm, h3⟩
    · rename_i hcm
      obtain ⟨r, e, h1, h2, h3⟩ := ih (v, m) h'
      refine ⟨r, e, ?_, h2, ?_⟩
      · intro q hq hqm
        rcases List.mem_cons.1 hq with rfl | hq
        · exact absurd hqm hcm
        · exact h1 q hq hqm
      · rcases h3 with h3 | ⟨q, hq, hqm, h3⟩
        · exact Or.inl h3
        · exact Or.inr ⟨q, by simp [hq], hqm, h3⟩

/-- The score is below the sum of the distances, hence below a large start value. -/
theorem score_le {d : Nat → Nat → K} {n : Nat} (hd : IsTable d n) {ms : List Nat} (hne : ms ≠ [])
    (hms : ∀ m ∈ ms, m < n) (c : Nat) (hc : c < n) : score d n ms c ≤ td d n ms := by
  have h1 : 0 ≤ td d n (ms ++ [c]) := by
    unfold td
    apply List.sum_nonneg
    intro y hy
    simp only [List.mem_map, List.mem_range] at hy
    obtain ⟨o, ho, rfl⟩ := hy
    obtain ⟨⟨m, hm, e⟩, -⟩ := nearest_mem d (ms := ms ++ [c]) (by simp) o
    show 0 ≤ nearest d (ms ++ [c]) o
    rw [e]
    refine hd.1 m o ?_ ho
    rcases List.mem_append.1 hm with h | h
    · exact hms m h
    · simp only [List.mem_singleton] at h; rw [h]; exact hc
  have h2 : 0 ≤ nearest d ms c := by
    obtain ⟨⟨m, hm, e⟩, -⟩ := nearest_mem d hne c
    rw [e]
    exact hd.1 m c (hms m hm) hc
  unfold score
  linarith

/-- The total deviation does not grow with more medoids. -/
theorem td_snoc_le (d : Nat → Nat → K) (n : Nat) {ms : List Nat} (hne : ms ≠ []) (c : Nat) :
    td d n (ms ++ [c]) ≤ td d n ms := by
  unfold td
  apply List.sum_le_sum
  intro o _
  show nearest d (ms ++ [c]) o ≤ nearest d ms o
  rw [nearest_snoc d hne]
  exact min_le_left _ _

theorem td_single (d : Nat → Nat → K) (n m : Nat) : td d n [m] = total d n m := by
  unfold td total
  congr 1

end Verif.KMedoids
