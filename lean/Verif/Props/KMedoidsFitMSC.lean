import Verif.Model.KMedoidsFitMSC
import Verif.Lemmas.FasterMSCTwo
import Verif.Props.FasterMSC
import Verif.Props.KMeansFit
import Verif.Props.KMedoidsFit

/-
Property C116: `KMedoids::fit` with FasterMSC.
-/

namespace Verif.KMedoids

open Spec

set_option linter.unusedSectionVars false

section

variable {K : Type} [LinearOrder K] [Field K] [IsStrictOrderedRing K]

/-- One candidate. -/
theorem candidate_run_msc (vmax : K) (eq : K → K → Bool) (d : Nat → Nat → K) (n : Nat) (ms : List Nat)
    (hms : ∀ m ∈ ms, m < n) (hk : 2 ≤ ms.length) (o : KMeans.Options) :
    ∃ s0 s, mscInit vmax eq d n ms = some s0 ∧
      KMeans.iterate (mscStep eq d n) (fun s => s.medoids) (fun a b => decide (a = b)) o o.maxIter s0 ms [] 0 =
        some (s, s.medoids) ∧
      s.medoids.length = ms.length ∧ ∀ m ∈ s.medoids, m < n := by
  obtain ⟨s0, e0, em, h0⟩ := mscInit_within vmax eq d n ms hk hms
  have hr := fun t => runMSC_within eq d h0 t
  choose f ef hf using hr
  have f0 : f 0 = s0 := by
    have := ef 0
    simp only [KMeans.runN, Option.some.injEq] at this
    exact this.symm
  have hstep : ∀ t, mscStep eq d n (f t) = some (f (t + 1)) := by
    intro t
    have := ef (t + 1)
    simp only [KMeans.runN, ef t, Option.bind_some] at this
    exact this
  have key : ∀ T, (∀ c, c = (if T = 0 then ms else (f T).medoids) → c = (f T).medoids) := by
    rintro T c rfl
    split
    · rename_i h; subst h; rw [f0, em]
    · rfl
  cases hes : o.earlyStopping with
  | true =>
    obtain ⟨T, -, e, -, -⟩ := KMeans.C44_early_stopping (mscStep eq d n) (fun s => s.medoids)
      (fun a b => decide (a = b)) [] o hes f hstep ms
    rw [f0] at e
    exact ⟨s0, f T, e0, by rw [e]; exact congrArg (fun c => some (f T, c)) (key T _ rfl), (hf T).num,
      (hf T).range⟩
  | false =>
    have e := KMeans.C44_all_iterations (mscStep eq d n) (fun s => s.medoids)
      (fun a b => decide (a = b)) [] o hes f hstep ms
    rw [f0] at e
    exact ⟨s0, f o.maxIter, e0, by rw [e]; exact congrArg (fun c => some (f o.maxIter, c)) (key _ _ rfl),
      (hf _).num, (hf _).range⟩

/-- Several candidates. -/
theorem fit_candidates_msc (vmax : K) (eq : K → K → Bool) (d : Nat → Nat → K) (n k : Nat)
    (hk : 2 ≤ k) (stored : List Nat) (o : KMeans.Options) (drawn : Nat → List Nat)
    (hC : ∀ c ∈ KMeans.candidates List.isEmpty o stored drawn, c.length = k ∧ ∀ m ∈ c, m < n)
    (hne : KMeans.candidates List.isEmpty o stored drawn ≠ []) :
    ∃ r, KMeans.fit (mscInit vmax eq d n) (mscStep eq d n) (fun s => s.medoids) (fun s => s.loss)
        (fun a b => decide (a = b)) List.isEmpty [] o stored drawn = some r ∧
      r.length = k ∧ ∀ m ∈ r, m < n := by
  have run : ∀ c ∈ KMeans.candidates List.isEmpty o stored drawn, _ := fun c hc =>
    candidate_run_msc vmax eq d n c (hC c hc).2 (by rw [(hC c hc).1]; exact hk) o
  classical
  choose s0 s1 e0 e1 h1 h2 using run
  let R : List Nat → MState K × List Nat := fun c =>
    if hc : c ∈ KMeans.candidates List.isEmpty o stored drawn then (s1 c hc, (s1 c hc).medoids)
    else (⟨[], [], [], 0⟩, [])
  have hR : ∀ c (hc : c ∈ KMeans.candidates List.isEmpty o stored drawn),
      R c = (s1 c hc, (s1 c hc).medoids) := fun c hc => dif_pos hc
  obtain ⟨i, c, hc, e, -, _⟩ := KMeans.C44_best (mscInit vmax eq d n) (mscStep eq d n) (fun s => s.medoids)
    (fun s => s.loss) (fun a b => decide (a = b)) List.isEmpty [] o stored drawn R
    (fun c hc => ⟨s0 c hc, e0 c hc, by rw [hR c hc]; exact e1 c hc⟩) hne
  have hcm := List.mem_of_getElem? hc
  rw [hR c hcm] at e
  exact ⟨_, e, by rw [h1 c hcm, (hC c hcm).1], h2 c hcm⟩

/-- **C116**, random start.  Whatever the table of distances (no symmetry, no sign, ties allowed), the
comparison of floating-point values, the options and the outcomes of the generator: with two or more
clusters and at least one candidate, `fit` makes no access out of a vector and returns as many sample
indices as clusters. -/
theorem C116_fit (vmax : K) (eq : K → K → Bool) (d : Nat → Nat → K) (n k : Nat)
    (hk : 2 ≤ k) (hkn : k ≤ n) (o : KMeans.Options) (outcome : Nat → Nat → Nat) (h1 : 1 ≤ o.nInit)
    (hval : ∀ i, Random.ValidOutcome k (outcome i)) :
    ∃ r, fitMSC vmax eq d n k o [] outcome = some r ∧ r.length = k ∧ ∀ m ∈ r, m < n := by
  choose g eg hg using fun i => fromInterval_zero (outcome i) hkn (hval i)
  have hm : (List.range o.nInit).mapM (fun i => Random.fromInterval (outcome i) k 0 n) =
      some ((List.range o.nInit).map g) := KMeans.mapM_some _ _ _ (fun i _ => eg i)
  have hc : ∀ c ∈ KMeans.candidates List.isEmpty o [] (fun i => ((List.range o.nInit).map g).getD i []),
      c.Perm (List.range k) := by
    intro c hc
    simp only [KMeans.candidates, List.isEmpty_nil, if_true, List.mem_map, List.mem_range] at hc
    obtain ⟨i, hi, rfl⟩ := hc
    simpa [List.getD_eq_getElem?_getD, hi] using hg i
  have hmem : ((List.range o.nInit).map g).getD 0 [] ∈
      KMeans.candidates List.isEmpty o [] (fun i => ((List.range o.nInit).map g).getD i []) := by
    simp only [KMeans.candidates, List.isEmpty_nil, if_true]
    exact List.mem_map.2 ⟨0, List.mem_range.2 h1, rfl⟩
  obtain ⟨r, e, h2, h4⟩ := fit_candidates_msc vmax eq d n k hk [] o
    (fun i => ((List.range o.nInit).map g).getD i []) (by
      intro c h
      have hp := hc c h
      refine ⟨by simpa using hp.length_eq, fun m hm => ?_⟩
      have := List.mem_range.1 (hp.subset hm)
      omega) (List.ne_nil_of_mem hmem)
  refine ⟨r, ?_, h2, h4⟩
  simp only [fitMSC, if_true, hm, Option.bind_eq_bind, Option.bind_some, e]

/-- **C116**, given medoids. -/
theorem C116_given (vmax : K) (eq : K → K → Bool) (d : Nat → Nat → K) (n : Nat)
    (ms : List Nat) (hk : 2 ≤ ms.length) (hms : ∀ m ∈ ms, m < n) (o : KMeans.Options) (k : Nat)
    (outcome : Nat → Nat → Nat) :
    ∃ r, fitMSC vmax eq d n k o ms outcome = some r ∧ r.length = ms.length ∧ ∀ m ∈ r, m < n := by
  have hne : ms ≠ [] := by rintro rfl; simp at hk
  have hcand : ∀ drawn, KMeans.candidates List.isEmpty o ms drawn = [ms] := by
    intro drawn
    simp [KMeans.candidates, hne]
  obtain ⟨r, e, h2, h4⟩ := fit_candidates_msc vmax eq d n ms.length hk ms o
    (fun i => ([] : List (List Nat)).getD i [])
    (fun c h => by rw [hcand, List.mem_singleton] at h; subst h; exact ⟨rfl, hms⟩)
    (by rw [hcand]; simp)
  refine ⟨r, ?_, h2, h4⟩
  simp only [fitMSC, if_neg hne, List.range_zero, List.mapM_nil, Option.pure_def, Option.bind_eq_bind,
    Option.bind_some, e]

/-- **C116**: a single cluster is never fitted, the constructor of FasterMSC throws. -/
theorem C116_single_cluster (vmax : K) (eq : K → K → Bool) (d : Nat → Nat → K) (n : Nat)
    (o : KMeans.Options) (outcome : Nat → Nat → Nat) (h1 : 1 ≤ o.nInit) (hn : 1 ≤ n)
    (hval : ∀ i, Random.ValidOutcome 1 (outcome i)) : fitMSC vmax eq d n 1 o [] outcome = none := by
  choose g eg hg using fun i => fromInterval_zero (outcome i) hn (hval i)
  have hm : (List.range o.nInit).mapM (fun i => Random.fromInterval (outcome i) 1 0 n) =
      some ((List.range o.nInit).map g) := KMeans.mapM_some _ _ _ (fun i _ => eg i)
  simp only [fitMSC, if_true, hm, Option.bind_eq_bind, Option.bind_some]
  obtain ⟨k, hk⟩ : ∃ k, o.nInit = k + 1 := ⟨o.nInit - 1, by omega⟩
  have hg0 : g 0 = [0] := by
    have := hg 0
    rw [show List.range 1 = [0] from rfl, List.perm_singleton] at this
    exact this
  have e : mscInit vmax eq d n [0] = none := by
    simp [mscInit, nthIndices, nthDistances, nearestIndices, nearestDistances]
  simp only [KMeans.fit, hk, List.isEmpty_nil, if_true, List.range_succ_eq_map, List.map_cons,
    List.mapM_cons, List.getD_cons_zero, hg0, e, Option.bind_eq_bind, Option.bind_none]

/-- **C116**, two medoids: a step either changes nothing or strictly lowers the reported loss, also with
ties and although the buffers are not what the exchanges take them for; so only finitely many exchanges
are made, after which the state never changes again.  (`eq` reports no two different values as equal;
distances are not negative and 0 from a sample to itself.) -/
theorem C116_two_medoids (vmax : K) (eq : K → K → Bool) (heq : ∀ a b, eq a b = true → a = b)
    (d : Nat → Nat → K) (n : Nat) (ms : List Nat) (hd : IsTable d n) (hms : ∀ m ∈ ms, m < n)
    (hk : ms.length = 2) (hv : 0 ≤ vmax) :
    (∀ t, ∃ s s', (mscInit vmax eq d n ms).bind (KMeans.runN (mscStep eq d n) t) = some s ∧
      mscStep eq d n s = some s' ∧ (s' = s ∨ s'.loss < s.loss)) ∧
    ∃ (N : Nat) (s : MState K), ∀ t, N ≤ t →
      (mscInit vmax eq d n ms).bind (KMeans.runN (mscStep eq d n) t) = some s := by
  let V : Set K := {0, vmax} ∪ Set.image2 d (Set.Iio n) (Set.Iio n)
  have hVf : V.Finite := (Set.toFinite _).union
    (Set.Finite.image2 d (Set.finite_Iio n) (Set.finite_Iio n))
  have hV0 : (0 : K) ∈ V := by simp [V]
  have hVm : vmax ∈ V := by simp [V]
  have hVd : ∀ i o, i < n → o < n → d i o ∈ V := fun i o hi ho => Or.inr ⟨i, hi, o, ho, rfl⟩
  have hVp : ∀ x ∈ V, 0 ≤ x := by
    rintro x ((rfl | rfl) | ⟨i, hi, o, ho, rfl⟩)
    · exact le_rfl
    · exact hv
    · exact hd.1 i o hi ho
  obtain ⟨s0, e0, em, h0⟩ := mscInit_within vmax eq d n ms (by omega) hms
  rw [hk] at h0
  have hc0 := mscInit_cached vmax eq d n ms hk hms V hVm hVd s0 e0
  have step := fun s (h : MOK n 2 s) (hb : Cached V s.buf) =>
    stepLoop3_two eq heq d hd V hV0 hVp hVd (List.range n) s (fun c hc => List.mem_range.1 hc) h hb
  have run : ∀ t, ∃ s, KMeans.runN (mscStep eq d n) t s0 = some s ∧ MOK n 2 s ∧ Cached V s.buf ∧
      s.loss ∈ insert s0.loss (losses (division eq) V n) := by
    intro t
    induction t with
    | zero => exact ⟨s0, rfl, h0, hc0, Or.inl rfl⟩
    | succ t ih =>
      obtain ⟨s, e, h, hb, hl⟩ := ih
      obtain ⟨s', e', h', hb', o'⟩ := step s h hb
      refine ⟨s', by simp only [KMeans.runN, e, Option.bind_some]; exact e', h', hb', ?_⟩
      rcases o' with rfl | o'
      · exact hl
      · exact Or.inr o'.2
  choose f ef hf hbf hlf using run
  refine ⟨fun t => ?_, ?_⟩
  · obtain ⟨s', e', -, -, o'⟩ := step (f t) (hf t) (hbf t)
    exact ⟨f t, s', by rw [e0, Option.bind_some, ef], e', o'.imp id And.left⟩
  have hfin : (Set.range fun t => (f t).loss).Finite := by
    refine ((losses_finite (division eq) hVf n).insert s0.loss).subset ?_
    rintro _ ⟨t, rfl⟩
    exact hlf t
  obtain ⟨x, ⟨N, rfl⟩, hmin⟩ := Set.exists_min_image _ id hfin ⟨_, ⟨0, rfl⟩⟩
  have hconst : ∀ t, f (N + t) = f N := by
    intro t
    induction t with
    | zero => rfl
    | succ t ih =>
      obtain ⟨s', e', -, -, hc⟩ := step (f (N + t)) (hf _) (hbf _)
      have e2 : f (N + (t + 1)) = s' := by
        have := ef (N + (t + 1))
        rw [← Nat.add_assoc, KMeans.runN, ef, Option.bind_some] at this
        rw [show mscStep eq d n (f (N + t)) = some s' from e', Option.some.injEq] at this
        rw [← Nat.add_assoc]
        exact this.symm
      rcases hc with hc | hc
      · rw [e2, hc, ih]
      · have := hmin _ ⟨N + (t + 1), rfl⟩
        simp only [id] at this
        rw [e2] at this
        have hc := hc.1
        rw [ih] at hc
        exact absurd hc (not_lt.2 this)
  refine ⟨N, f N, fun t ht => ?_⟩
  rw [e0, Option.bind_some, ef, Option.some.injEq]
  obtain ⟨q, rfl⟩ := Nat.exists_eq_add_of_le ht
  exact hconst q

end

/-- **C116**: the best candidate is not always kept.  Two clusters of four points on a line; the two
candidates start from the first two samples, in the two orders.  The second one reaches the medoids 3 and
1 with sum of ratios 12/35, but the medoids 0 and 3 of the first one are returned, with 4/3, which is also
worse than the 19/42 of the start.  The losses compared are those reported. -/
theorem C116_best_counterexample :
    let d := lineQ [9, 4, 11, 10]
    fitMSC 1000 eqQ d 4 2 { nInit := 2 } [] (fun i j => if j = 0 then i else j) = some [0, 3] ∧
    fitMSC 1000 eqQ d 4 2 { nInit := 1 } [] (fun _ j => if j = 0 then 1 else j) = some [3, 1] ∧
    ms (division eqQ) d 4 [0, 3] = 4 / 3 ∧ ms (division eqQ) d 4 [3, 1] = 12 / 35 ∧
    ms (division eqQ) d 4 [0, 1] = 19 / 42 := by
  decide +kernel

/-- **C116**: with two clusters the result depends on the unit of length.  The sums of ratios are the same
in both units, but the first exchange is compared with the sum of the distances; in the larger unit it is
below every sum of ratios, so no exchange is made and the start is returned. -/
theorem C116_unit_counterexample :
    let d := lineQ [0, 1, 20, 22]
    let d' := lineQ [0, 1 / 1000, 20 / 1000, 22 / 1000]
    fitMSC 1000 eqQ d 4 2 {} [] (fun _ j => j) = some [0, 3] ∧
    fitMSC 1000 eqQ d' 4 2 {} [] (fun _ j => j) = some [0, 1] ∧
    ms (division eqQ) d 4 [0, 3] = 31 / 210 ∧ ms (division eqQ) d' 4 [0, 3] = 31 / 210 ∧
    ms (division eqQ) d 4 [0, 1] = 419 / 220 ∧ ms (division eqQ) d' 4 [0, 1] = 419 / 220 := by
  decide +kernel

/-- The hypotheses of `C116_fit` and `C116_two_medoids` hold for tables with ties: samples at 0, 2, 1, 1
and 5 on a line.  The generator gives the first two samples in the other order. -/
example : IsTable (lineQ [0, 2, 1, 1, 5]) 5 ∧ (dists (lineQ [0, 2, 1, 1, 5]) [0, 1] 2) = [1, 1] ∧
    (Random.ValidOutcome 2 fun _ => 1) ∧
    fitMSC 1000 eqQ (lineQ [0, 2, 1, 1, 5]) 5 2 {} [] (fun _ _ => 1) = some [2, 0] ∧
    fitMSC 1000 eqQ (lineQ [0, 2, 1, 1, 5]) 5 3 {} [0, 1, 2] (fun _ _ => 1) = some [4, 1, 2] := by
  refine ⟨lineQ_table _ _, by decide +kernel, ?_, by decide +kernel, by decide +kernel⟩
  intro i hi
  constructor <;> dsimp only <;> omega

end Verif.KMedoids
