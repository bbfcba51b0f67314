import Verif.Props.KMeans
import Verif.Props.Random

/-
Properties of `fit` (C44, KMeans.hpp and KMedoids.hpp) and of k-means++ (C55).
-/

namespace Verif.KMeans

set_option linter.unusedSectionVars false

/-! ### C44 -/

section Fit

variable {S C : Type}

/-- Step `t + 1` of the run `traj` gave the same centroids as step `t`; the first step is compared
with the empty container. -/
def Repeats (cent : S → C) (same : C → C → Bool) (none' : C) (traj : Nat → S) (t : Nat) : Prop :=
  same (cent (traj (t + 1))) (if t = 0 then none' else cent (traj t)) = true

/-- Each of the last `p + 1` of `T` steps repeated the previous centroids. -/
def Settled (cent : S → C) (same : C → C → Bool) (none' : C) (traj : Nat → S) (p T : Nat) : Prop :=
  p + 1 ≤ T ∧ ∀ j, j ≤ p → Repeats cent same none' traj (T - 1 - j)

theorem iterate_spec (step : S → Option S) (cent : S → C) (same : C → C → Bool) (none' : C)
    (o : Options) (hes : o.earlyStopping = true) (traj : Nat → S)
    (hstep : ∀ t, step (traj t) = some (traj (t + 1))) :
    ∀ (iter t pat : Nat) (cand prev : C), prev = (if t = 0 then none' else cent (traj t)) →
      (t ≠ 0 → cand = cent (traj t)) → pat ≤ o.patience → pat ≤ t →
      (∀ j, j < pat → Repeats cent same none' traj (t - 1 - j)) →
      (pat < t → ¬ Repeats cent same none' traj (t - 1 - pat)) →
      (∀ T, T ≤ t → ¬ Settled cent same none' traj o.patience T) →
      ∃ T, t ≤ T ∧ T ≤ t + iter ∧
        iterate step cent same o iter (traj t) cand prev pat =
          some (traj T, if T = 0 then cand else cent (traj T)) ∧
        (T < t + iter → Settled cent same none' traj o.patience T) ∧
        ∀ T', T' < T → ¬ Settled cent same none' traj o.patience T'
  | 0, t, pat, cand, prev, _, hcand, _, _, _, _, hno => by
    refine ⟨t, le_rfl, le_rfl, ?_, fun h => absurd h (by omega), fun T' h => hno T' h.le⟩
    simp only [iterate]
    by_cases ht : t = 0
    · simp [ht]
    · simp only [ht, if_false]
      rw [hcand ht]
  | iter + 1, t, pat, cand, prev, hprev, hcand, hpat, hpt, hrep, hmax, hno => by
    simp only [iterate, hstep, Option.bind_eq_bind, Option.bind_some, hes, Bool.true_and]
    have hR : Repeats cent same none' traj t ↔ same (cent (traj (t + 1))) prev = true := by
      rw [Repeats, hprev]
    by_cases hs : same (cent (traj (t + 1))) prev = true
    · rw [if_pos hs]
      by_cases hp : pat = o.patience
      · rw [if_pos hp]
        refine ⟨t + 1, by omega, by omega, by simp, ?_, fun T' h => hno T' (by omega)⟩
        intro _
        refine ⟨by omega, ?_⟩
        intro j hj
        cases j with
        | zero => simpa using hR.2 hs
        | succ j =>
          have := hrep j (by omega)
          rwa [show t + 1 - 1 - (j + 1) = t - 1 - j by omega]
      · rw [if_neg hp]
        obtain ⟨T, h1, h2, h3, h4, h5⟩ := iterate_spec step cent same none' o hes traj hstep iter (t + 1)
          (pat + 1) (cent (traj (t + 1))) (cent (traj (t + 1))) (by simp) (fun _ => rfl) (by omega)
          (by omega) (by
            intro j hj
            cases j with
            | zero => simpa using hR.2 hs
            | succ j =>
              have := hrep j (by omega)
              rwa [show t + 1 - 1 - (j + 1) = t - 1 - j by omega]) (by
            intro hlt
            have := hmax (by omega)
            rwa [show t + 1 - 1 - (pat + 1) = t - 1 - pat by omega]) (by
            intro T hT
            rcases Nat.lt_succ_iff_lt_or_eq.1 (Nat.lt_succ_of_le hT) with h | h
            · exact hno T (by omega)
            · subst h
              rintro ⟨hle, hall⟩
              have := hall (pat + 1) (by omega)
              rw [show t + 1 - 1 - (pat + 1) = t - 1 - pat by omega] at this
              exact hmax (by omega) this)
        refine ⟨T, by omega, by omega, ?_, fun h => h4 (by omega), h5⟩
        rw [h3, if_neg (by omega), if_neg (by omega)]
    · rw [if_neg hs]
      obtain ⟨T, h1, h2, h3, h4, h5⟩ := iterate_spec step cent same none' o hes traj hstep iter (t + 1)
        0 (cent (traj (t + 1))) (cent (traj (t + 1))) (by simp) (fun _ => rfl) (by omega)
        (by omega) (by intro j hj; omega) (by
          intro _ h
          exact hs (hR.1 (by simpa using h))) (by
          intro T hT
          rcases Nat.lt_succ_iff_lt_or_eq.1 (Nat.lt_succ_of_le hT) with h | h
          · exact hno T (by omega)
          · subst h
            rintro ⟨_, hall⟩
            exact hs (hR.1 (by simpa using hall 0 (by omega))))
      refine ⟨T, by omega, by omega, ?_, fun h => h4 (by omega), h5⟩
      rw [h3, if_neg (by omega), if_neg (by omega)]

/-- **C44**, iterations with early stopping: a run makes at most `max_iter` steps, it stops before only
when each of the last `patience + 1` steps repeated the centroids of the step before, and it stops at
the first such moment. -/
theorem C44_early_stopping (step : S → Option S) (cent : S → C) (same : C → C → Bool) (none' : C)
    (o : Options) (hes : o.earlyStopping = true) (traj : Nat → S)
    (hstep : ∀ t, step (traj t) = some (traj (t + 1))) (c : C) :
    ∃ T, T ≤ o.maxIter ∧
      iterate step cent same o o.maxIter (traj 0) c none' 0 =
        some (traj T, if T = 0 then c else cent (traj T)) ∧
      (T < o.maxIter → Settled cent same none' traj o.patience T) ∧
      ∀ T', T' < T → ¬ Settled cent same none' traj o.patience T' := by
  obtain ⟨T, _, h2, h3, h4, h5⟩ := iterate_spec step cent same none' o hes traj hstep o.maxIter 0 0 c
    none' (by simp) (by simp) (by omega) le_rfl (by intro j hj; omega) (by intro h; omega) (by
      intro T hT h
      have := h.1
      omega)
  exact ⟨T, by omega, h3, fun h => h4 (by omega), h5⟩

/-- **C44**, iterations without early stopping: exactly `max_iter` steps. -/
theorem C44_all_iterations (step : S → Option S) (cent : S → C) (same : C → C → Bool) (none' : C)
    (o : Options) (hes : o.earlyStopping = false) (traj : Nat → S)
    (hstep : ∀ t, step (traj t) = some (traj (t + 1))) (c : C) :
    iterate step cent same o o.maxIter (traj 0) c none' 0 =
      some (traj o.maxIter, if o.maxIter = 0 then c else cent (traj o.maxIter)) := by
  have key : ∀ (iter t : Nat) (cand prev : C) (pat : Nat), (t ≠ 0 → cand = cent (traj t)) →
      iterate step cent same o iter (traj t) cand prev pat =
        some (traj (t + iter), if t + iter = 0 then cand else cent (traj (t + iter))) := by
    intro iter
    induction iter with
    | zero =>
      intro t cand prev pat hc
      simp only [iterate]
      by_cases ht : t = 0
      · simp [ht]
      · simp [ht, hc ht]
    | succ iter ih =>
      intro t cand prev pat hc
      simp only [iterate, hstep, Option.bind_eq_bind, Option.bind_some, hes, Bool.false_and,
        Bool.false_eq_true, if_false]
      rw [ih (t + 1) _ _ _ (fun _ => rfl)]
      rw [show t + 1 + iter = t + (iter + 1) by omega, if_neg (by omega), if_neg (by omega)]
  have := key o.maxIter 0 c none' 0 (by simp)
  simpa using this

variable {K : Type} [LinearOrder K]

/-- The candidates that `fit` runs from. -/
def candidates (isEmpty : C → Bool) (o : Options) (stored : C) (drawn : Nat → C) : List C :=
  if isEmpty stored then (List.range o.nInit).map drawn else [stored]

/-- **C44**, choice: when every candidate runs to a result, `fit` returns the centroids of the first
run whose reported loss is minimal. -/
theorem C44_best (init : C → Option S) (step : S → Option S) (cent : S → C) (loss : S → K)
    (same : C → C → Bool) (isEmpty : C → Bool) (none' : C) (o : Options) (stored : C)
    (drawn : Nat → C) (R : C → S × C)
    (hR : ∀ c ∈ candidates isEmpty o stored drawn, ∃ s, init c = some s ∧
      iterate step cent same o o.maxIter s c none' 0 = some (R c))
    (hne : candidates isEmpty o stored drawn ≠ []) :
    ∃ (i : Nat) (c : C), (candidates isEmpty o stored drawn)[i]? = some c ∧
      fit init step cent loss same isEmpty none' o stored drawn = some (R c).2 ∧
      (∀ c' ∈ candidates isEmpty o stored drawn, loss (R c).1 ≤ loss (R c').1) ∧
      ∀ (j : Nat) c', j < i → (candidates isEmpty o stored drawn)[j]? = some c' →
        loss (R c).1 < loss (R c').1 := by
  have hm : (candidates isEmpty o stored drawn).mapM (fun c => (init c).bind fun s =>
      iterate step cent same o o.maxIter s c none' 0) = some ((candidates isEmpty o stored drawn).map R) := by
    apply mapM_some
    intro c hc
    obtain ⟨s, h1, h2⟩ := hR c hc
    rw [h1, Option.bind_some, h2]
  obtain ⟨i, v, e, hi, hmin, hfirst⟩ := Stats.minPair_spec
    (((candidates isEmpty o stored drawn).map R).map fun r => loss r.1) (by simpa using hne)
  simp only [List.getElem?_map, Option.map_eq_some_iff] at hi
  obtain ⟨_, ⟨c, hc, rfl⟩, rfl⟩ := hi
  refine ⟨i, c, hc, ?_, ?_, ?_⟩
  · have : fit init step cent loss same isEmpty none' o stored drawn =
        ((candidates isEmpty o stored drawn).mapM (fun c => (init c).bind fun s =>
          iterate step cent same o o.maxIter s c none' 0)).bind fun runs =>
          (Stats.argmin none (runs.map fun r => loss r.1)).bind fun i =>
            (runs[i]?).bind fun r => some r.2 := rfl
    rw [this, hm, Option.bind_some, Stats.argmin, e]
    simp [Stats.asValueType, hc]
  · intro c' hc'
    exact hmin _ (List.mem_map.2 ⟨R c', List.mem_map.2 ⟨c', hc', rfl⟩, rfl⟩)
  · intro j c' hj hc'
    exact hfirst j (loss (R c').1) hj (by simp [hc'])

/-- Without candidates (`n_init` 0 and nothing stored) `argmin` of an empty range is dereferenced. -/
theorem C44_no_candidate (init : C → Option S) (step : S → Option S) (cent : S → C) (loss : S → K)
    (same : C → C → Bool) (isEmpty : C → Bool) (none' : C) (o : Options) (stored : C)
    (drawn : Nat → C) (hs : isEmpty stored = true) (h0 : o.nInit = 0) :
    fit init step cent loss same isEmpty none' o stored drawn = none := by
  simp [fit, hs, h0, Stats.argmin, Stats.minPair, Stats.best]

/-- A second `fit` starts from the stored centroids: the initializer and `n_init` are ignored. -/
theorem C44_warm_start (init : C → Option S) (step : S → Option S) (cent : S → C) (loss : S → K)
    (same : C → C → Bool) (isEmpty : C → Bool) (none' : C) (o : Options) (stored : C)
    (drawn : Nat → C) (hs : isEmpty stored = false) :
    fit init step cent loss same isEmpty none' o stored drawn =
      ((init stored).bind fun s => iterate step cent same o o.maxIter s stored none' 0).map (·.2) := by
  have hf : fit init step cent loss same isEmpty none' o stored drawn =
      ([stored].mapM (fun c => (init c).bind fun s =>
        iterate step cent same o o.maxIter s c none' 0)).bind fun runs =>
        (Stats.argmin none (runs.map fun r => loss r.1)).bind fun i =>
          (runs[i]?).bind fun r => some r.2 := by
    simp only [fit, hs, Bool.false_eq_true, if_false, Option.bind_eq_bind]
  rw [hf, List.mapM_cons, List.mapM_nil]
  cases (init stored).bind fun s => iterate step cent same o o.maxIter s stored none' 0 with
  | none => rfl
  | some r => simp [Stats.argmin, Stats.minPair, Stats.best, Stats.bestLoop, Stats.asValueType]

end Fit

/-- `fit` on the samples 0, 1, 10, 11, 20, 21 with Lloyd steps: the first candidate is stuck, the
second one is better. -/
example : fit (fun c => some (lloydInit (1000 : ℚ) (fun a b => |a - b|) [0, 1, 10, 11, 20, 21] c))
    (lloydStep 1000 (fun a b => |a - b|) [0, 1, 10, 11, 20, 21]) (·.centroids) (·.loss)
    (containersEqual 0) List.isEmpty [] { nInit := 2, patience := 1 } []
    (fun i => if i = 0 then [0, 1, 15] else [0, 10, 20]) = some [1 / 2, 21 / 2, 41 / 2] := by
  decide +kernel

/-! ### `fit` with Lloyd steps -/

variable {nf : Nat}

/-- **C44/C42** together: `fit` with Lloyd steps does not fail and returns centroids that are at most
as bad, for the k-means objective, as one of the candidates it started from. -/
theorem C44_lloyd (inf B : ℝ) (xs : List (Fin nf → ℝ)) (hx : ∀ x ∈ xs, InBox B x)
    (hinf : 2 * B * nf < inf) (same : List (Fin nf → ℝ) → List (Fin nf → ℝ) → Bool) (o : Options)
    (stored : List (Fin nf → ℝ)) (drawn : Nat → List (Fin nf → ℝ))
    (hd : ∀ i, drawn i ≠ [] ∧ ∀ c ∈ drawn i, InBox B c) (hs : ∀ c ∈ stored, InBox B c)
    (h0 : stored = [] → o.nInit ≠ 0) :
    ∃ c ∈ candidates List.isEmpty o stored drawn, ∃ r,
      fit (fun c => some (lloydInit inf edist xs c)) (lloydStep inf edist xs) (·.centroids) (·.loss)
        same List.isEmpty [] o stored drawn = some r ∧ r.length = c.length ∧
      objective xs r ≤ objective xs c := by
  have hcand : ∀ c ∈ candidates List.isEmpty o stored drawn, c ≠ [] ∧ ∀ v ∈ c, InBox B v := by
    intro c hc
    rw [candidates] at hc
    split at hc
    · obtain ⟨i, _, rfl⟩ := List.mem_map.1 hc
      exact hd i
    · rename_i h
      rw [List.mem_singleton] at hc
      subst hc
      exact ⟨by simpa using h, hs⟩
  have hrun : ∀ c ∈ candidates List.isEmpty o stored drawn, ∃ R : LState (Fin nf → ℝ) ℝ × List (Fin nf → ℝ),
      iterate (lloydStep inf edist xs) (·.centroids) same o o.maxIter (lloydInit inf edist xs c) c [] 0 =
        some R ∧ R.2.length = c.length ∧ objective xs R.2 ≤ objective xs c := by
    intro c hc
    obtain ⟨hne, hbox⟩ := hcand c hc
    have run := C42_lloyd_run inf B xs c hne hx hbox hinf
    let traj : Nat → LState (Fin nf → ℝ) ℝ := fun t =>
      (runN (lloydStep inf edist xs) t (lloydInit inf edist xs c)).getD (lloydInit inf edist xs c)
    have htraj : ∀ t, runN (lloydStep inf edist xs) t (lloydInit inf edist xs c) = some (traj t) := by
      intro t
      obtain ⟨s, _, e, _⟩ := run t
      simp only [traj, e, Option.getD_some]
    have hstep : ∀ t, lloydStep inf edist xs (traj t) = some (traj (t + 1)) := by
      intro t
      have h1 := htraj (t + 1)
      simp only [runN, htraj t, Option.bind_some] at h1
      exact h1
    have hobj : ∀ T, objective xs (if T = 0 then c else (traj T).centroids) ≤ objective xs c ∧
        (if T = 0 then c else (traj T).centroids).length = c.length := by
      intro T
      split
      · exact ⟨le_rfl, rfl⟩
      · obtain ⟨s, _, e, _, _, hl, _, _, h⟩ := run T
        rw [htraj T] at e
        rw [Option.some.inj e]
        exact ⟨h, hl⟩
    cases hes : o.earlyStopping with
    | true =>
      obtain ⟨T, _, e, _⟩ := C44_early_stopping (lloydStep inf edist xs) (·.centroids) same [] o hes traj
        hstep c
      exact ⟨_, e, (hobj T).2, (hobj T).1⟩
    | false =>
      have e := C44_all_iterations (lloydStep inf edist xs) (·.centroids) same [] o hes traj hstep c
      exact ⟨_, e, (hobj _).2, (hobj _).1⟩
  classical
  let R : List (Fin nf → ℝ) → LState (Fin nf → ℝ) ℝ × List (Fin nf → ℝ) := fun c =>
    (iterate (lloydStep inf edist xs) (·.centroids) same o o.maxIter (lloydInit inf edist xs c) c [] 0).getD
      (lloydInit inf edist xs c, c)
  have hR : ∀ c ∈ candidates List.isEmpty o stored drawn,
      iterate (lloydStep inf edist xs) (·.centroids) same o o.maxIter (lloydInit inf edist xs c) c [] 0 =
        some (R c) ∧ (R c).2.length = c.length ∧ objective xs (R c).2 ≤ objective xs c := by
    intro c hc
    obtain ⟨r, e, h⟩ := hrun c hc
    simp only [R, e, Option.getD_some]
    exact ⟨trivial, h⟩
  have hne : candidates List.isEmpty o stored drawn ≠ [] := by
    rw [candidates]
    split
    · rename_i h
      have := h0 (by simpa using h)
      simpa using this
    · simp
  obtain ⟨i, c, hc, e, _⟩ := C44_best (fun c => some (lloydInit inf edist xs c)) (lloydStep inf edist xs)
    (·.centroids) (·.loss) same List.isEmpty [] o stored drawn R
    (fun c hc => ⟨_, rfl, (hR c hc).1⟩) hne
  have hmem := List.mem_of_getElem? hc
  exact ⟨c, hmem, _, e, (hR c hmem).2.1, (hR c hmem).2.2⟩

/-! ### C55 -/

theorem minLoop_le {V K : Type} [LinearOrder K] (dist : V → V → K) (x : V) : ∀ (cs : List V) (md : K),
    minLoop dist x cs md ≤ md ∧ ∀ c ∈ cs, minLoop dist x cs md ≤ dist x c
  | [], md => by simp [minLoop]
  | c :: cs, md => by
    simp only [minLoop]
    have ih := minLoop_le dist x cs (if dist x c < md then dist x c else md)
    have h1 : (if dist x c < md then dist x c else md) ≤ md := by split <;> order
    have h2 : (if dist x c < md then dist x c else md) ≤ dist x c := by split <;> order
    refine ⟨ih.1.trans h1, ?_⟩
    intro c' hc'
    rcases List.mem_cons.1 hc' with rfl | hc'
    · exact ih.1.trans h2
    · exact ih.2 c' hc'

theorem lt_minLoop {V K : Type} [LinearOrder K] (dist : V → V → K) (x : V) (b : K) :
    ∀ (cs : List V) (md : K), b < md → (∀ c ∈ cs, b < dist x c) → b < minLoop dist x cs md
  | [], md, h, _ => h
  | c :: cs, md, h, hc => by
    simp only [minLoop]
    refine lt_minLoop dist x b cs _ ?_ (fun c' hc' => hc c' (List.mem_cons_of_mem _ hc'))
    split
    · exact hc c List.mem_cons_self
    · exact h

theorem edist_eq_zero {x c : Fin nf → ℝ} (h : edist x c = 0) : x = c := by
  obtain ⟨v, hv, _, hz⟩ := Distances.C56_euclidean.defined (List.ofFn x) (List.ofFn c) (by simp)
  rw [euclidean_ofFn] at hv
  exact List.ofFn_injective (hz.1 ((Option.some.inj hv).symm.trans h))

theorem edist_self (x : Fin nf → ℝ) : edist x x = 0 := by simp [edist, sq]

theorem plusPlusLoop_spec (inf : ℝ) (hinf0 : 0 < inf) (xs l : List (Fin nf → ℝ)) (hl : l.Nodup)
    (hsub : ∀ v ∈ l, v ∈ xs) (u : Nat → ℝ × ℝ)
    (hu : ∀ i, u i ∈ Set.Ico (0 : ℝ) 1 ×ˢ Set.Ico (0 : ℝ) 1) :
    ∀ (k : Nat) (cs : List (Fin nf → ℝ)), cs.Nodup → (∀ c ∈ cs, c ∈ xs) → cs.length + k ≤ l.length →
      ∃ r, plusPlusLoop inf edist (fun i w => Random.sampleAt w (u i)) xs k cs = some r ∧
        r.Nodup ∧ (∀ c ∈ r, c ∈ xs) ∧ r.length = cs.length + k
  | 0, cs, hn, hm, _ => ⟨cs, rfl, hn, hm, rfl⟩
  | k + 1, cs, hn, hm, hle => by
    obtain ⟨y, hy, hyc⟩ : ∃ y ∈ l, y ∉ cs := by
      by_contra hcon
      have : l ⊆ cs := fun y hy => by
        by_contra hyc
        exact hcon ⟨y, hy, hyc⟩
      have := (List.subperm_of_subset hl this).length_le
      omega
    have hw0 : ∀ w ∈ nearestDistances inf edist xs cs, 0 ≤ w := by
      intro w hw
      obtain ⟨x, _, rfl⟩ := List.mem_map.1 hw
      rw [minLoop_eq edist x cs 0 0]
      rcases nearestLoop_spec edist x cs 0 0 inf with ⟨e, _⟩ | ⟨t, c, _, e, _⟩
      · rw [e]; exact hinf0.le
      · rw [e]; exact edist_isDist.nonneg _ _
    have hpos : 0 < (nearestDistances inf edist xs cs).sum := by
      have hyw : minLoop edist y cs inf ∈ nearestDistances inf edist xs cs :=
        List.mem_map.2 ⟨y, hsub y hy, rfl⟩
      have h1 : 0 < minLoop edist y cs inf := by
        refine lt_minLoop edist y 0 cs inf hinf0 ?_
        intro c hc
        refine lt_of_le_of_ne (edist_isDist.nonneg _ _) ?_
        intro h
        exact hyc (edist_eq_zero h.symm ▸ hc)
      exact h1.trans_le (List.single_le_sum hw0 _ hyw)
    obtain ⟨i, e, hil, hiw⟩ := Random.C53_zero_never_drawn _ hw0 hpos (u k) (hu k)
    have hix : i < xs.length := by simpa [nearestDistances] using hil
    have hnot : xs[i] ∉ cs := by
      intro hmem
      have : (nearestDistances inf edist xs cs).getD i 0 = minLoop edist xs[i] cs inf := by
        simp [nearestDistances, List.getD_eq_getElem?_getD, hix]
      rw [this] at hiw
      have h2 := (minLoop_le edist xs[i] cs inf).2 _ hmem
      rw [edist_self] at h2
      exact absurd hiw (not_lt.2 h2)
    obtain ⟨r, er, h1, h2, h3⟩ := plusPlusLoop_spec inf hinf0 xs l hl hsub u hu k (cs ++ [xs[i]])
      (by
        rw [List.nodup_append]
        refine ⟨hn, by simp, ?_⟩
        intro a ha b hb
        rw [List.mem_singleton] at hb
        subst hb
        rintro rfl
        exact hnot ha) (by
        intro c hc
        rcases List.mem_append.1 hc with hc | hc
        · exact hm c hc
        · rw [List.mem_singleton] at hc
          subst hc
          exact List.getElem_mem hix) (by simp; omega)
    refine ⟨r, ?_, h1, h2, by simp at h3; omega⟩
    simp only [plusPlusLoop, e, Option.bind_eq_bind, Option.bind_some, List.getElem?_eq_getElem hix, er]

/-- **C55**: whatever the outcomes of the generator, k-means++ on data with at least `k` distinct
samples draws `k` pairwise different samples.  (The alias method is the one of C53; `u i` are its two
uniform numbers.)  Missing: integral data (`C55_integral_weights`). -/
theorem C55_distinct_partial (inf : ℝ) (hinf0 : 0 < inf) (xs : List (Fin nf → ℝ)) (k : Nat) (hk : 1 ≤ k)
    (hdist : ∃ l : List (Fin nf → ℝ), l.Nodup ∧ (∀ v ∈ l, v ∈ xs) ∧ k ≤ l.length)
    (first : Nat) (hfirst : first < xs.length) (u : Nat → ℝ × ℝ)
    (hu : ∀ i, u i ∈ Set.Ico (0 : ℝ) 1 ×ˢ Set.Ico (0 : ℝ) 1) :
    ∃ r, plusPlus inf edist (fun i w => Random.sampleAt w (u i)) first xs k = some r ∧
      r.length = k ∧ r.Nodup ∧ ∀ c ∈ r, c ∈ xs := by
  obtain ⟨l, hl, hsub, hlen⟩ := hdist
  obtain ⟨r, e, h1, h2, h3⟩ := plusPlusLoop_spec inf hinf0 xs l hl hsub u hu (k - 1) [xs[first]]
    (by simp) (by simp) (by simp; omega)
  refine ⟨r, ?_, by simp at h3; omega, h1, h2⟩
  simp only [plusPlus, List.getElem?_eq_getElem hfirst, Option.bind_eq_bind, Option.bind_some, e]

/-- The hypotheses are met by three points with two of them equal and `k = 2`. -/
example : ∃ l : List (Fin 1 → ℝ), l.Nodup ∧ (∀ v ∈ l, v ∈ ([![0], ![3], ![0]] : List (Fin 1 → ℝ))) ∧
    2 ≤ l.length := by
  refine ⟨[![0], ![3]], ?_, by simp, by simp⟩
  simp only [List.nodup_cons, List.mem_singleton, List.not_mem_nil, not_false_eq_true, List.nodup_nil,
    and_true]
  intro h
  have := congrFun h 0
  simp at this

/-- For integral data every weight handed to the alias method is 0, so the drawn sample is
unrelated to the distances. -/
theorem C55_integral_weights {V K : Type} [LinearOrder K] [Zero K] (dist : V → V → K)
    (h0 : ∀ a b, 0 ≤ dist a b) (xs cs : List V) :
    nearestDistances 0 dist xs cs = List.replicate xs.length 0 :=
  (C41_integral dist h0 xs cs).2

/-- `make_centroids_from_previous_centroid` weights by the last centroid only; it can draw the first
centroid again: samples 0, 1 and `k = 3`. -/
theorem C55_from_previous_repeats :
    fromPrevious (1000 : ℚ) (fun a b => |a - b|) (fun _ w => some (w.findIdx (fun v => decide (0 < v)))) 0
      [0, 1] 3 = some [0, 1, 0] := by
  decide +kernel

end Verif.KMeans
