import Verif.Model.PAMBuildRounding
import Verif.Lemmas.PAMBuild
import Verif.Lemmas.FasterPAMGrid

/-
PAM BUILD with rounded arithmetic: the loops, the errors of the sums, whole distances.
-/

namespace Verif.KMedoids

open Spec Verif.Dendrogram

variable {fl : ℝ → ℝ} {u : ℝ} {d : Nat → Nat → ℝ} {n : Nat}

theorem firstMedoidLoopR_spec (fl : ℝ → ℝ) (d : Nat → Nat → ℝ) (n : Nat) (cs : List Nat) : ∀ acc : ℝ × Nat,
    (∀ c ∈ cs, (firstMedoidLoopR fl d n cs acc).1 ≤ rsum fl d n c) ∧
    (firstMedoidLoopR fl d n cs acc).1 ≤ acc.1 ∧
    (firstMedoidLoopR fl d n cs acc = acc ∨
      ∃ c ∈ cs, firstMedoidLoopR fl d n cs acc = (rsum fl d n c, c)) := by
  induction cs with
  | nil => intro acc; simp [firstMedoidLoopR]
  | cons c cs ih =>
    rintro ⟨v, m⟩
    rw [firstMedoidLoopR]
    by_cases hlt : rsum fl d n c < v
    · obtain ⟨h1, h2, h3⟩ := ih (rsum fl d n c, c)
      rw [if_pos hlt]
      refine ⟨fun q hq => ?_, le_trans h2 hlt.le, ?_⟩
      · rcases List.mem_cons.1 hq with rfl | hq
        · exact h2
        · exact h1 q hq
      · rcases h3 with h3 | ⟨q, hq, h3⟩
        · exact Or.inr ⟨c, by simp, h3⟩
        · exact Or.inr ⟨q, by simp [hq], h3⟩
    · obtain ⟨h1, h2, h3⟩ := ih (v, m)
      rw [if_neg hlt]
      refine ⟨fun q hq => ?_, h2, ?_⟩
      · rcases List.mem_cons.1 hq with rfl | hq
        · exact le_trans h2 (not_lt.1 hlt)
        · exact h1 q hq
      · rcases h3 with h3 | ⟨q, hq, h3⟩
        · exact Or.inl h3
        · exact Or.inr ⟨q, by simp [hq], h3⟩

theorem rsum_near (H : RelErr u fl) (hd : IsTable d n) {c : Nat} (hc : c < n) :
    Near u n (td d n [c]) (rsum fl d n c) (td d n [c]) := by
  have := foldl_near H ((List.range n).map fun o => d c o) 0 0 0 0 (by
    intro x hx
    obtain ⟨o, ho, rfl⟩ := List.mem_map.1 hx
    exact hd.1 c o hc (List.mem_range.1 ho)) (near_self (by simp))
  rw [td_single]
  simpa [rsum, total] using this

/-- The reduction at one sample. -/
noncomputable def part (d : Nat → Nat → ℝ) (ms : List Nat) (c o : Nat) : ℝ :=
  if c ≠ o ∧ o ∉ ms then nearest d ms o - min (nearest d ms o) (d c o) else 0

theorem part_nonneg (d : Nat → Nat → ℝ) (ms : List Nat) (c o : Nat) : 0 ≤ part d ms c o := by
  unfold part
  split
  · linarith [min_le_left (nearest d ms o) (d c o)]
  · exact le_rfl

theorem buildGainR_loop (H : RelErr u fl) (d : Nat → Nat → ℝ) (n : Nat) (ms : List Nat) (c : Nat)
    (os : List Nat) : ∀ (acc : ℝ) (j : Nat) (A X : ℝ), (∀ o ∈ os, o < n) → 1 ≤ j → Near u j A acc X →
    ∃ y, buildGainR fl d ms ((List.range n).map (nearest d ms)) c os acc = some y ∧
      Near u (j + os.length) (A + (os.map (part d ms c)).sum) y (X + (os.map (part d ms c)).sum) := by
  induction os with
  | nil => intro acc j A X _ _ h; exact ⟨acc, rfl, by simpa using h⟩
  | cons o os ih =>
    intro acc j A X ho hj h
    have h' : ∀ q ∈ os, q < n := fun q hq => ho q (by simp [hq])
    rw [buildGainR, List.map_cons, List.sum_cons, List.length_cons]
    have e : j + (os.length + 1) = j + 1 + os.length := by omega
    rw [e, ← add_assoc, ← add_assoc]
    by_cases hco : c ≠ o ∧ o ∉ ms
    · rw [if_pos hco, List.getElem?_map, List.getElem?_range (ho o (by simp))]
      simp only [Option.map_some, Option.bind_eq_bind, Option.bind_some]
      by_cases hlt : d c o < nearest d ms o
      · rw [if_pos hlt]
        have hp : part d ms c o = -(d c o - nearest d ms o) := by
          rw [part, if_pos hco, min_eq_right hlt.le]
          ring
        have ht : |d c o - nearest d ms o| = part d ms c o := by
          rw [abs_of_neg (by linarith), hp]
        refine ih _ (j + 1) _ _ h' (by omega) (H.round ?_)
        have h2 := h.sub ((H.round (near_self (u := u) (le_of_eq ht))).mono H.1 hj le_rfl)
        have e2 : X + part d ms c o = X - (d c o - nearest d ms o) := by rw [hp]; ring
        rw [e2]
        exact h2
      · rw [if_neg hlt]
        have hp : part d ms c o = 0 := by
          rw [part, if_pos hco, min_eq_left (not_lt.1 hlt), sub_self]
        rw [hp, add_zero, add_zero]
        exact ih _ (j + 1) _ _ h' (by omega) (h.mono H.1 (by omega) le_rfl)
    · rw [if_neg hco]
      have hp : part d ms c o = 0 := by rw [part, if_neg hco]
      rw [hp, add_zero, add_zero]
      exact ih _ (j + 1) _ _ h' (by omega) (h.mono H.1 (by omega) le_rfl)

theorem part_sum (hd : IsTable d n) {ms : List Nat} (hne : ms ≠ []) (hms : ∀ m ∈ ms, m < n) {c : Nat}
    (hc : c < n) : ((List.range n).map (part d ms c)).sum = score d n ms c := by
  have h1 := buildGain_spec hd hne hms hc
  rw [buildGain_loop d n ms c _ _ (fun o => List.mem_range.1), zero_add, Option.some.injEq] at h1
  exact h1

theorem buildGainR_spec (H : RelErr u fl) (hd : IsTable d n) {ms : List Nat} (hne : ms ≠ [])
    (hms : ∀ m ∈ ms, m < n) {c : Nat} (hc : c < n) :
    ∃ y, buildGainR fl d ms ((List.range n).map (nearest d ms)) c (List.range n) 0 = some y ∧
      Near u (n + 1) (score d n ms c) y (score d n ms c) := by
  obtain ⟨y, e, h⟩ := buildGainR_loop H d n ms c (List.range n) 0 1 0 0 (fun o => List.mem_range.1) le_rfl
    ((near_self (by simp)).mono H.1 (by omega) le_rfl)
  rw [part_sum hd hne hms hc, zero_add, List.length_range, Nat.add_comm 1 n] at h
  exact ⟨y, e, h⟩

theorem buildRoundR_spec (H : RelErr u fl) (hd : IsTable d n) {ms : List Nat} (hne : ms ≠ [])
    (hms : ∀ m ∈ ms, m < n) (cs : List Nat) : ∀ acc : ℝ × Nat, (∀ c ∈ cs, c < n) →
    ∃ r, buildRoundR fl d n ms ((List.range n).map (nearest d ms)) cs acc = some r ∧
      (∀ c ∈ cs, c ∉ ms → ∃ y, r.1 ≤ y ∧ Near u (n + 1) (score d n ms c) y (score d n ms c)) ∧ r.1 ≤ acc.1 ∧
      (r = acc ∨ r.2 ∈ cs ∧ r.2 ∉ ms ∧ Near u (n + 1) (score d n ms r.2) r.1 (score d n ms r.2)) := by
  induction cs with
  | nil => intro acc _; exact ⟨acc, rfl, by simp, le_refl _, Or.inl rfl⟩
  | cons c cs ih =>
    rintro ⟨v, m⟩ h
    have h' : ∀ q ∈ cs, q < n := fun q hq => h q (by simp [hq])
    rw [buildRoundR]
    by_cases hcm : c ∉ ms
    · obtain ⟨y, ey, hy⟩ := buildGainR_spec H hd hne hms (h c (by simp))
      rw [if_pos hcm, ey]
      simp only [Option.bind_eq_bind, Option.bind_some]
      by_cases hlt : y < v
      · rw [if_pos hlt]
        obtain ⟨r, e, h1, h2, h3⟩ := ih (y, c) h'
        refine ⟨r, e, fun q hq hqm => ?_, le_trans h2 hlt.le, ?_⟩
        · rcases List.mem_cons.1 hq with rfl | hq
          · exact ⟨y, h2, hy⟩
          · exact h1 q hq hqm
        · rcases h3 with rfl | ⟨hq, hqm, h3⟩
          · exact Or.inr ⟨by simp, hcm, hy⟩
          · exact Or.inr ⟨by simp [hq], hqm, h3⟩
      · rw [if_neg hlt]
        obtain ⟨r, e, h1, h2, h3⟩ := ih (v, m) h'
        refine ⟨r, e, fun q hq hqm => ?_, h2, ?_⟩
        · rcases List.mem_cons.1 hq with rfl | hq
          · exact ⟨y, le_trans h2 (not_lt.1 hlt), hy⟩
          · exact h1 q hq hqm
        · rcases h3 with h3 | ⟨hq, hqm, h3⟩
          · exact Or.inl h3
          · exact Or.inr ⟨by simp [hq], hqm, h3⟩
    · rw [if_neg hcm]
      obtain ⟨r, e, h1, h2, h3⟩ := ih (v, m) h'
      refine ⟨r, e, fun q hq hqm => ?_, h2, ?_⟩
      · rcases List.mem_cons.1 hq with rfl | hq
        · exact absurd hqm hcm
        · exact h1 q hq hqm
      · rcases h3 with h3 | ⟨hq, hqm, h3⟩
        · exact Or.inl h3
        · exact Or.inr ⟨by simp [hq], hqm, h3⟩

/-! ### Whole distances -/

variable {N D : Nat}

theorem rsum_eq (H : Exact fl N) (hN : n * D ≤ N) (hw : Whole d n D) {c : Nat} (hc : c < n) :
    rsum fl d n c = ((List.range n).map fun o => d c o).sum ∧ Grid (n * D) (rsum fl d n c) := by
  have hx : ∀ x ∈ (List.range n).map fun o => d c o, NatUpTo D x := by
    intro x hx
    obtain ⟨o, ho, rfl⟩ := List.mem_map.1 hx
    exact hw c o hc (List.mem_range.1 ho)
  have e := foldlR_eq H ((List.range n).map fun o => d c o) 0 0 grid_zero hx (by simpa using hN)
  rw [zero_add] at e
  refine ⟨e, ?_⟩
  rw [rsum, e]
  have key : ∀ l : List ℝ, (∀ x ∈ l, NatUpTo D x) → Grid (l.length * D) l.sum := by
    intro l
    induction l with
    | nil => intro _; simpa using (grid_zero (a := 0 * D))
    | cons x l ih =>
      intro h
      obtain ⟨z, e1, hz⟩ := ih fun y hy => h y (by simp [hy])
      obtain ⟨w, e2, hw⟩ := (h x (by simp)).grid
      refine ⟨w + z, by rw [List.sum_cons, e1, e2]; push_cast; rfl, ?_⟩
      rw [List.length_cons, Nat.add_mul, Nat.one_mul]
      have := abs_add_le w z
      push_cast at *
      linarith
  simpa using key _ hx

theorem firstMedoidLoopR_eq (H : Exact fl N) (hN : n * D ≤ N) (hw : Whole d n D) (cs : List Nat) :
    ∀ acc : ℝ × Nat, (∀ c ∈ cs, c < n) → firstMedoidLoopR fl d n cs acc = firstMedoidLoop d n cs acc := by
  induction cs with
  | nil => intro acc _; rfl
  | cons c cs ih =>
    rintro ⟨v, m⟩ h
    rw [firstMedoidLoopR, firstMedoidLoop, (rsum_eq H hN hw (h c (by simp))).1]
    exact ih _ fun q hq => h q (by simp [hq])

theorem buildGainR_eq (H : Exact fl N) (c : Nat) (ms : List Nat) (near : List ℝ) (os : List Nat) :
    ∀ (acc : ℝ) (a : Nat), Grid a acc →
      (∀ o ∈ os, NatUpTo D (d c o) ∧ ∀ x, near[o]? = some x → NatUpTo D x) → a + os.length * D ≤ N →
      buildGainR fl d ms near c os acc = buildGain d ms near c os acc ∧
        ∀ y, buildGain d ms near c os acc = some y → Grid (a + os.length * D) y := by
  induction os with
  | nil =>
    intro acc a h _ _
    refine ⟨rfl, fun y e => ?_⟩
    simp only [buildGain, Option.some.injEq] at e
    subst e
    simpa using h
  | cons o os ih =>
    intro acc a h ho hN
    have e1 : a + (o :: os).length * D = a + D + os.length * D := by
      rw [List.length_cons, Nat.add_mul, Nat.one_mul]
      omega
    rw [e1] at hN ⊢
    have ho' : ∀ q ∈ os, NatUpTo D (d c q) ∧ ∀ x, near[q]? = some x → NatUpTo D x :=
      fun q hq => ho q (by simp [hq])
    rw [buildGainR, buildGain]
    by_cases hco : c ≠ o ∧ o ∉ ms
    · rw [if_pos hco, if_pos hco]
      cases ex : near[o]? with
      | none => exact ⟨rfl, by intro y e; cases e⟩
      | some x =>
        simp only [Option.bind_eq_bind, Option.bind_some]
        have hx := (ho o (by simp)).2 x ex
        have hsub : Grid D (d c o - x) := (ho o (by simp)).1.sub hx
        have hacc : Grid (a + D) (acc - (d c o - x)) := by
          obtain ⟨z, rfl, hz⟩ := h
          obtain ⟨w, e2, hw⟩ := hsub
          refine ⟨z - w, by rw [e2]; push_cast; rfl, ?_⟩
          rw [abs_le] at *
          push_cast at *
          constructor <;> linarith [hz.1, hz.2, hw.1, hw.2]
        by_cases hlt : d c o < x
        · rw [if_pos hlt, if_pos hlt, H _ (hsub.mono (by omega)), H _ (hacc.mono (by omega))]
          exact ih _ (a + D) hacc ho' hN
        · rw [if_neg hlt, if_neg hlt]
          exact ih _ (a + D) (h.mono (by omega)) ho' hN
    · rw [if_neg hco, if_neg hco]
      exact ih _ (a + D) (h.mono (by omega)) ho' hN

theorem nearest_whole (hw : Whole d n D) {ms : List Nat} (hne : ms ≠ []) (hms : ∀ m ∈ ms, m < n) {c o : Nat}
    (hc : c < n) (ho : o < n) : NatUpTo D (d c o) ∧
      ∀ x, ((List.range n).map (nearest d ms))[o]? = some x → NatUpTo D x := by
  refine ⟨hw c o hc ho, fun x hx => ?_⟩
  rw [List.getElem?_map, List.getElem?_range ho, Option.map_some, Option.some.injEq] at hx
  obtain ⟨⟨m, hm, e⟩, -⟩ := nearest_mem d hne o
  rw [← hx, e]
  exact hw m o (hms m hm) ho

theorem buildRoundR_eq (H : Exact fl N) (hN : n * D ≤ N) (hw : Whole d n D) {ms : List Nat} (hne : ms ≠ [])
    (hms : ∀ m ∈ ms, m < n) (cs : List Nat) : ∀ acc : ℝ × Nat, (∀ c ∈ cs, c < n) →
    buildRoundR fl d n ms ((List.range n).map (nearest d ms)) cs acc =
      buildRound d n ms ((List.range n).map (nearest d ms)) cs acc := by
  induction cs with
  | nil => intro acc _; rfl
  | cons c cs ih =>
    rintro ⟨v, m⟩ h
    have h' : ∀ q ∈ cs, q < n := fun q hq => h q (by simp [hq])
    rw [buildRoundR, buildRound]
    by_cases hcm : c ∉ ms
    · rw [if_pos hcm, if_pos hcm, (buildGainR_eq (D := D) H c ms _ (List.range n) 0 0 grid_zero
        (fun o ho => nearest_whole hw hne hms (h c (by simp)) (List.mem_range.1 ho))
        (by simpa using hN)).1]
      cases buildGain d ms ((List.range n).map (nearest d ms)) c (List.range n) 0 with
      | none => rfl
      | some l =>
        simp only [Option.bind_eq_bind, Option.bind_some]
        exact ih _ h'
    · rw [if_neg hcm, if_neg hcm]
      exact ih _ h'

theorem score_grid (hd : IsTable d n) (hw : Whole d n D) {ms : List Nat} (hne : ms ≠ [])
    (hms : ∀ m ∈ ms, m < n) {c : Nat} (hc : c < n) : Grid (n * D) (score d n ms c) := by
  have := (buildGainR_eq (D := D) (fl := id) (N := n * D) (d := d) (fun _ _ => rfl) c ms
    ((List.range n).map (nearest d ms)) (List.range n) 0 0 grid_zero
    (fun o ho => nearest_whole hw hne hms hc (List.mem_range.1 ho)) (by simp)).2 _ (buildGain_spec hd hne hms hc)
  simpa using this

end Verif.KMedoids
