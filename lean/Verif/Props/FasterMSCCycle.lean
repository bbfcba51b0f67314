import Verif.Props.KMedoidsFitMSC
import Mathlib.Tactic.IntervalCases

/-
C116: FasterMSC with three or more clusters need not converge.
-/

namespace Verif.KMedoids

open Spec

deriving instance DecidableEq for MState

/-- The distances of twelve samples. -/
def cycleRows : List (List ℚ) :=
  [[0, 51, 39, 35, 37, 52, 51, 52, 51, 36, 26, 33],
   [51, 0, 34, 37, 31, 52, 29, 47, 31, 35, 36, 33],
   [39, 34, 0, 52, 43, 28, 31, 36, 43, 39, 26, 49],
   [35, 37, 52, 0, 41, 35, 32, 45, 31, 30, 43, 28],
   [37, 31, 43, 41, 0, 40, 31, 29, 49, 52, 36, 27],
   [52, 52, 28, 35, 40, 0, 29, 43, 29, 41, 48, 26],
   [51, 29, 31, 32, 31, 29, 0, 29, 33, 29, 52, 52],
   [52, 47, 36, 45, 29, 43, 29, 0, 33, 45, 52, 47],
   [51, 31, 43, 31, 49, 29, 33, 33, 0, 46, 32, 28],
   [36, 35, 39, 30, 52, 41, 29, 45, 46, 0, 26, 33],
   [26, 36, 26, 43, 36, 48, 52, 52, 32, 26, 0, 50],
   [33, 33, 49, 28, 27, 26, 52, 47, 28, 33, 50, 0]]

/-- The distance of the samples `i` and `j`. -/
def cycleDist (i j : Nat) : ℚ := (cycleRows.getD i []).getD j 0

/-- `d` is a metric on the first `n` natural numbers. -/
def IsMetricTable (d : Nat → Nat → ℚ) (n : Nat) : Prop :=
  (∀ i < n, ∀ j < n, d i j = 0 ↔ i = j) ∧ (∀ i < n, ∀ j < n, d i j = d j i) ∧
    ∀ i < n, ∀ j < n, ∀ l < n, d i l ≤ d i j + d j l

theorem cycleDist_metric : IsMetricTable cycleDist 12 := by
  unfold IsMetricTable
  decide +kernel

/-- The state after `t` steps from the medoids 0, ..., 6. -/
def cycleState (t : Nat) : Option (MState ℚ) :=
  (mscInit 1000 eqQ cycleDist 12 (List.range 7)).bind (KMeans.runN (mscStep eqQ cycleDist 12) t)

theorem cycleState_succ (t : Nat) :
    cycleState (t + 1) = (cycleState t).bind (mscStep eqQ cycleDist 12) := by
  simp only [cycleState, KMeans.runN]
  cases mscInit 1000 eqQ cycleDist 12 (List.range 7) <;> rfl

theorem cycle_start : cycleState 7 = cycleState 4 := by
  decide +kernel

theorem cycle_first : (List.range 7).map (fun t => (cycleState t).map (·.medoids)) =
    [some [0, 1, 2, 3, 4, 5, 6], some [0, 11, 2, 3, 4, 5, 6], some [10, 11, 2, 1, 4, 5, 6],
      some [10, 11, 2, 1, 8, 3, 6], some [7, 11, 2, 1, 8, 5, 6], some [10, 11, 2, 1, 4, 5, 6],
      some [10, 11, 2, 1, 8, 3, 6]] := by
  decide +kernel

theorem cycle_period (t : Nat) (ht : 4 ≤ t) : cycleState (t + 3) = cycleState t := by
  obtain ⟨u, rfl⟩ := Nat.exists_eq_add_of_le ht
  clear ht
  induction u with
  | zero => exact cycle_start
  | succ u ih =>
    rw [show 4 + (u + 1) + 3 = (4 + u + 3) + 1 by omega, show 4 + (u + 1) = (4 + u) + 1 by omega,
      cycleState_succ, ih, ← cycleState_succ]

/-- The medoids of the cycle. -/
def cycleMedoids (t : Nat) : List Nat :=
  if t % 3 = 2 then [10, 11, 2, 1, 4, 5, 6] else if t % 3 = 0 then [10, 11, 2, 1, 8, 3, 6]
  else [7, 11, 2, 1, 8, 5, 6]

theorem cycle_medoids (t : Nat) (ht : 2 ≤ t) : (cycleState t).map (·.medoids) = some (cycleMedoids t) := by
  have h := cycle_first
  simp only [List.range_succ, List.range_zero, List.nil_append, List.cons_append, List.map_cons, List.map_nil,
    List.cons.injEq] at h
  induction t using Nat.strong_induction_on with
  | _ t ih =>
    rcases Nat.lt_or_ge t 7 with h7 | h7
    · interval_cases t
      · exact h.2.2.1
      · exact h.2.2.2.1
      · exact h.2.2.2.2.1
      · exact h.2.2.2.2.2.1
      · exact h.2.2.2.2.2.2.1
    · obtain ⟨u, rfl⟩ : ∃ u, t = u + 3 := ⟨t - 3, by omega⟩
      rw [cycle_period u (by omega), ih u (by omega) (by omega)]
      simp [cycleMedoids]

theorem cycleMedoids_ne (t : Nat) : cycleMedoids (t + 1) ≠ cycleMedoids t := by
  have : t % 3 = 0 ∨ t % 3 = 1 ∨ t % 3 = 2 := by omega
  rcases this with h | h | h <;> simp [cycleMedoids, Nat.add_mod, h]

theorem cycle_moves (t : Nat) (s s' : MState ℚ) (h : cycleState t = some s)
    (h' : cycleState (t + 1) = some s') : s'.medoids ≠ s.medoids := by
  rcases Nat.lt_or_ge t 2 with ht | ht
  · have hf := cycle_first
    simp only [List.range_succ, List.range_zero, List.nil_append, List.cons_append, List.map_cons,
      List.map_nil, List.cons.injEq] at hf
    interval_cases t
    · have h1 := hf.1
      have h2 := hf.2.1
      rw [show (0 : Nat) + 1 = 1 from rfl] at h'
      rw [h, Option.map_some, Option.some.injEq] at h1
      rw [h', Option.map_some, Option.some.injEq] at h2
      rw [h1, h2]
      decide
    · have h1 := hf.2.1
      have h2 := hf.2.2.1
      rw [show (1 : Nat) + 1 = 2 from rfl] at h'
      rw [h, Option.map_some, Option.some.injEq] at h1
      rw [h', Option.map_some, Option.some.injEq] at h2
      rw [h1, h2]
      decide
  · have h1 := cycle_medoids t ht
    have h2 := cycle_medoids (t + 1) (by omega)
    rw [h, Option.map_some, Option.some.injEq] at h1
    rw [h', Option.map_some, Option.some.injEq] at h2
    rw [h1, h2]
    exact cycleMedoids_ne t

/-- **C116**: with seven clusters of twelve samples of a metric space FasterMSC goes round three sets of
medoids for ever.  Every step changes the medoids, so early stopping never applies, and for all options with
`max_iter` at least 2 `fit` returns the set that `max_iter` modulo 3 selects. -/
theorem C116_cycle_counterexample :
    IsMetricTable cycleDist 12 ∧
    ∀ (o : KMeans.Options) (k : Nat) (outcome : Nat → Nat → Nat), 2 ≤ o.maxIter →
      fitMSC 1000 eqQ cycleDist 12 k o (List.range 7) outcome = some (cycleMedoids o.maxIter) := by
  refine ⟨cycleDist_metric, ?_⟩
  intro o k outcome ho
  have hall : ∀ t, ∃ s, cycleState t = some s := by
    intro t
    rcases Nat.lt_or_ge t 2 with ht | ht
    · have hf := cycle_first
      simp only [List.range_succ, List.range_zero, List.nil_append, List.cons_append, List.map_cons,
        List.map_nil, List.cons.injEq] at hf
      interval_cases t
      · obtain ⟨s, h, _⟩ := Option.map_eq_some_iff.1 hf.1
        exact ⟨s, h⟩
      · obtain ⟨s, h, _⟩ := Option.map_eq_some_iff.1 hf.2.1
        exact ⟨s, h⟩
    · obtain ⟨s, h, _⟩ := Option.map_eq_some_iff.1 (cycle_medoids t ht)
      exact ⟨s, h⟩
  choose f hf using hall
  have hstep : ∀ t, mscStep eqQ cycleDist 12 (f t) = some (f (t + 1)) := by
    intro t
    have h1 := hf (t + 1)
    rw [cycleState_succ, hf t] at h1
    exact h1
  have e0 : mscInit 1000 eqQ cycleDist 12 (List.range 7) = some (f 0) := by
    have := hf 0
    unfold cycleState at this
    cases e : mscInit 1000 eqQ cycleDist 12 (List.range 7) with
    | none => rw [e] at this; cases this
    | some s => rw [e] at this; exact this
  have hmed : (f o.maxIter).medoids = cycleMedoids o.maxIter := by
    have := cycle_medoids o.maxIter ho
    rw [hf, Option.map_some, Option.some.injEq] at this
    exact this
  have e1 : KMeans.iterate (mscStep eqQ cycleDist 12) (fun s => s.medoids) (fun a b => decide (a = b)) o
      o.maxIter (f 0) (List.range 7) [] 0 = some (f o.maxIter, cycleMedoids o.maxIter) := by
    cases hes : o.earlyStopping with
    | false =>
      rw [KMeans.C44_all_iterations (mscStep eqQ cycleDist 12) (fun s => s.medoids)
        (fun a b => decide (a = b)) [] o hes f hstep, if_neg (by omega), hmed]
    | true =>
      obtain ⟨T, hT, e, hset, -⟩ := KMeans.C44_early_stopping (mscStep eqQ cycleDist 12) (fun s => s.medoids)
        (fun a b => decide (a = b)) [] o hes f hstep (List.range 7)
      rcases Nat.lt_or_ge T o.maxIter with hlt | hge
      · exfalso
        obtain ⟨hp, hrep⟩ := hset hlt
        have h1 := hrep 0 (by omega)
        rw [KMeans.Repeats, decide_eq_true_iff] at h1
        obtain ⟨u, rfl⟩ : ∃ u, T = u + 1 := ⟨T - 1, by omega⟩
        simp only [Nat.add_sub_cancel, Nat.sub_zero] at h1
        by_cases hu : u = 0
        · subst hu
          rw [if_pos rfl] at h1
          have h2 := cycle_first
          simp only [List.range_succ, List.range_zero, List.nil_append, List.cons_append, List.map_cons,
            List.map_nil, List.cons.injEq] at h2
          have h3 := h2.2.1
          rw [hf, Option.map_some, Option.some.injEq] at h3
          rw [show 0 + 1 = 1 from rfl, h3] at h1
          cases h1
        · rw [if_neg hu] at h1
          exact cycle_moves u (f u) (f (u + 1)) (hf u) (hf (u + 1)) h1
      · have hTe : T = o.maxIter := by omega
        subst hTe
        rw [e, if_neg (by omega), hmed]
  have hcand : KMeans.candidates List.isEmpty o (List.range 7)
      (fun i => ([] : List (List Nat)).getD i []) = [List.range 7] := by
    simp [KMeans.candidates, List.range_succ]
  obtain ⟨i, c, hc, e, -⟩ := KMeans.C44_best (mscInit 1000 eqQ cycleDist 12) (mscStep eqQ cycleDist 12)
    (fun s => s.medoids) (fun s => s.loss) (fun a b => decide (a = b)) List.isEmpty [] o (List.range 7)
    (fun i => ([] : List (List Nat)).getD i []) (fun _ => (f o.maxIter, cycleMedoids o.maxIter))
    (fun c hc => by
      rw [hcand, List.mem_singleton] at hc
      subst hc
      exact ⟨f 0, e0, e1⟩) (by rw [hcand]; simp)
  have hne : List.range 7 ≠ [] := by simp [List.range_succ]
  simp only [fitMSC, if_neg hne, List.range_zero, List.mapM_nil, Option.pure_def, Option.bind_eq_bind,
    Option.bind_some, e]

/-- The sums of ratios of the three sets of medoids: the second is better than the others and is left again. -/
example : ms (division eqQ) cycleDist 12 (cycleMedoids 3) < ms (division eqQ) cycleDist 12 (cycleMedoids 2) ∧
    ms (division eqQ) cycleDist 12 (cycleMedoids 3) < ms (division eqQ) cycleDist 12 (cycleMedoids 4) := by
  decide +kernel

end Verif.KMedoids
