import Verif.Model.KMedoidsFitRounding
import Verif.Props.FasterPAMRounding
import Verif.Props.KMedoidsFit
import Verif.Lemmas.KMeansRounding

/-
Property C130: `KMedoids::fit` in floating arithmetic, end to end.
-/

namespace Verif.KMedoids

open Spec Verif.Dendrogram
open Verif.Rounding (Rounding Order unit IsFloat)

variable {p : Nat}

/-- One candidate. -/
theorem candidate_runR (R : Rounding p) (vmax : ℝ) (eq : ℝ → ℝ → Bool) {d : Nat → Nat → ℝ} {n : Nat}
    {ms : List Nat} (hd : IsTable d n) {D : ℝ} (hD : ∀ i o, i < n → o < n → d i o ≤ D)
    (hms : ∀ m ∈ ms, m < n) (hnd : ms.Nodup) (hk : 2 ≤ ms.length)
    (hv : ∀ i o, i < n → o < n → d i o < vmax) (ht : ∀ o, o < n → NoTies eq (dists d ms o))
    (o : KMeans.Options) :
    ∃ s0 s, pamInitR R.rnd vmax eq d n ms = some s0 ∧
      KMeans.iterate (pamStepR R.rnd d n) (fun s => s.medoids) (fun a b => decide (a = b)) o o.maxIter s0 ms
        [] 0 = some (s, s.medoids) ∧
      BufR R.rnd (unit p) d n s ∧ s.medoids.length = ms.length ∧ s.medoids.Nodup ∧
      (∀ m ∈ s.medoids, m < n) ∧
      td d n s.medoids ≤ td d n ms + o.maxIter * n * slack (unit p) n D := by
  obtain ⟨s0, e0, em, h0⟩ := pamInitR_spec (relErr R) vmax eq hd hms hk (fun o ho m hm => hv m o (hms m hm) ho) ht
  have hs := slack_nonneg (p := p) hd hD
  have hr := fun t => runR_spec R hd hD (by rw [em]; exact hms) h0 t 0 (Nat.zero_le _)
  choose f ef hf hmf hlf hnf hlef using hr
  have ef' : ∀ t, KMeans.runN (pamStepR R.rnd d n) t s0 = some (f t) := by
    intro t
    rw [← ef t, List.range_zero]
    cases KMeans.runN (pamStepR R.rnd d n) t s0 <;> rfl
  have f0 : f 0 = s0 := by
    have := ef' 0
    simp only [KMeans.runN, Option.some.injEq] at this
    exact this.symm
  have hstep : ∀ t, pamStepR R.rnd d n (f t) = some (f (t + 1)) := by
    intro t
    have := ef' (t + 1)
    simp only [KMeans.runN, ef' t, Option.bind_some] at this
    exact this
  have key : ∀ T, (∀ c, c = (if T = 0 then ms else (f T).medoids) → c = (f T).medoids) := by
    rintro T c rfl
    split
    · rename_i h; subst h; rw [f0, em]
    · rfl
  have fin : ∀ T, T ≤ o.maxIter → BufR R.rnd (unit p) d n (f T) ∧ (f T).medoids.length = ms.length ∧
      (f T).medoids.Nodup ∧ (∀ m ∈ (f T).medoids, m < n) ∧
      td d n (f T).medoids ≤ td d n ms + o.maxIter * n * slack (unit p) n D := by
    intro T hT
    refine ⟨hf T, by rw [hlf T, em], hnf T (by rw [em]; exact hnd), hmf T, ?_⟩
    have h1 := hlef T
    rw [em] at h1
    have h2 : ((T : ℝ) * n + (0 : ℕ)) * slack (unit p) n D ≤ o.maxIter * n * slack (unit p) n D := by
      refine mul_le_mul_of_nonneg_right ?_ hs
      rw [Nat.cast_zero, add_zero]
      exact mul_le_mul_of_nonneg_right (by exact_mod_cast hT) (Nat.cast_nonneg n)
    linarith
  cases hes : o.earlyStopping with
  | true =>
    obtain ⟨T, hT, e, -, -⟩ := KMeans.C44_early_stopping (pamStepR R.rnd d n) (fun s => s.medoids)
      (fun a b => decide (a = b)) [] o hes f hstep ms
    rw [f0] at e
    exact ⟨s0, f T, e0, by rw [e]; exact congrArg (fun c => some (f T, c)) (key T _ rfl), fin T hT⟩
  | false =>
    have e := KMeans.C44_all_iterations (pamStepR R.rnd d n) (fun s => s.medoids)
      (fun a b => decide (a = b)) [] o hes f hstep ms
    rw [f0] at e
    exact ⟨s0, f o.maxIter, e0, by rw [e]; exact congrArg (fun c => some (f o.maxIter, c)) (key _ _ rfl),
      fin _ le_rfl⟩

/-- Several candidates: the choice compares rounded losses. -/
theorem fit_candidatesR (R : Rounding p) (vmax : ℝ) (eq : ℝ → ℝ → Bool) {d : Nat → Nat → ℝ} {n k : Nat}
    (hd : IsTable d n) {D : ℝ} (hD : ∀ i o, i < n → o < n → d i o ≤ D) (hk : 2 ≤ k)
    (hv : ∀ i o, i < n → o < n → d i o < vmax) (stored : List Nat) (o : KMeans.Options)
    (drawn : Nat → List Nat)
    (hC : ∀ c ∈ KMeans.candidates List.isEmpty o stored drawn, c.length = k ∧ c.Nodup ∧ (∀ m ∈ c, m < n) ∧
      ∀ o, o < n → NoTies eq (dists d c o))
    (hne : KMeans.candidates List.isEmpty o stored drawn ≠ []) :
    ∃ r, KMeans.fit (pamInitR R.rnd vmax eq d n) (pamStepR R.rnd d n) (fun s => s.medoids) (fun s => s.loss)
        (fun a b => decide (a = b)) List.isEmpty [] o stored drawn = some r ∧
      r.length = k ∧ r.Nodup ∧ (∀ m ∈ r, m < n) ∧
      ∀ c ∈ KMeans.candidates List.isEmpty o stored drawn, (2 - (1 + unit p) ^ n) * td d n r ≤
        (1 + unit p) ^ n * (td d n c + o.maxIter * n * slack (unit p) n D) := by
  have run : ∀ c ∈ KMeans.candidates List.isEmpty o stored drawn, _ := fun c hc =>
    candidate_runR R vmax eq hd hD (hC c hc).2.2.1 (hC c hc).2.1 (by rw [(hC c hc).1]; exact hk) hv
      (hC c hc).2.2.2 o
  classical
  choose s0 s1 e0 e1 h1 h2 h3 h4 h5 using run
  let Q : List Nat → PState ℝ × List Nat := fun c =>
    if hc : c ∈ KMeans.candidates List.isEmpty o stored drawn then (s1 c hc, (s1 c hc).medoids)
    else (⟨[], [], [], 0⟩, [])
  have hQ : ∀ c (hc : c ∈ KMeans.candidates List.isEmpty o stored drawn),
      Q c = (s1 c hc, (s1 c hc).medoids) := fun c hc => dif_pos hc
  obtain ⟨i, c, hc, e, hbest, _⟩ := KMeans.C44_best (pamInitR R.rnd vmax eq d n) (pamStepR R.rnd d n)
    (fun s => s.medoids) (fun s => s.loss) (fun a b => decide (a = b)) List.isEmpty [] o stored drawn Q
    (fun c hc => ⟨s0 c hc, e0 c hc, by rw [hQ c hc]; exact e1 c hc⟩) hne
  have hcm := List.mem_of_getElem? hc
  rw [hQ c hcm] at e hbest
  refine ⟨_, e, by rw [h2 c hcm, (hC c hcm).1], h3 c hcm, h4 c hcm, ?_⟩
  intro c' hc'
  have hb := hbest c' hc'
  rw [hQ c' hc'] at hb
  dsimp only at hb
  have l1 := (abs_le.1 (h1 c hcm).loss.1).1
  have l2 := (abs_le.1 (h1 c' hc').loss.1).2
  have hq : 0 ≤ (1 + unit p) ^ n := pow_nonneg (by linarith [Verif.Rounding.Rounding.unit_pos (p := p)]) _
  have l3 := mul_le_mul_of_nonneg_left (h5 c' hc') hq
  dsimp only
  linarith

/-- **C130**, random start.  All sums and differences are rounded; the distances are those the code computes.
Let no distance exceed `D` and let no sample have two equal distances to the first `k` samples.  Whatever the
options and the outcomes of the generator, `fit` returns `k` distinct samples, and their total deviation
exceeds that of the first `k` samples by no more than the error of the reported losses, which the choice among
the candidates compares, and of the gains, once for every candidate exchange tried. -/
theorem C130_fit (R : Rounding p) (vmax : ℝ) (eq : ℝ → ℝ → Bool) (d : Nat → Nat → ℝ) (n k : Nat)
    (hd : IsTable d n) (D : ℝ) (hD : ∀ i o, i < n → o < n → d i o ≤ D) (hk : 2 ≤ k) (hkn : k ≤ n)
    (hv : ∀ i o, i < n → o < n → d i o < vmax) (ht : ∀ o, o < n → NoTies eq (dists d (List.range k) o))
    (o : KMeans.Options) (outcome : Nat → Nat → Nat) (h1 : 1 ≤ o.nInit)
    (hval : ∀ i, Random.ValidOutcome k (outcome i)) :
    ∃ r, fitR R.rnd vmax eq d n k o [] outcome = some r ∧ r.length = k ∧ r.Nodup ∧ (∀ m ∈ r, m < n) ∧
      (2 - (1 + unit p) ^ n) * td d n r ≤ (1 + unit p) ^ n * (td d n (List.range k) +
        o.maxIter * n * (((1 + unit p) ^ (2 * n + 2) - 1) * (2 * n * D))) := by
  choose g eg hg using fun i => fromInterval_zero (outcome i) hkn (hval i)
  have hm : (List.range o.nInit).mapM (fun i => Random.fromInterval (outcome i) k 0 n) =
      some ((List.range o.nInit).map g) := KMeans.mapM_some _ _ _ (fun i _ => eg i)
  have hc : ∀ c ∈ KMeans.candidates List.isEmpty o [] (fun i => ((List.range o.nInit).map g).getD i []),
      c.Perm (List.range k) := by
    intro c hc
    simp only [KMeans.candidates, List.isEmpty_nil, if_true, List.mem_map, List.mem_range] at hc
    obtain ⟨i, hi, rfl⟩ := hc
    simpa [List.getD_eq_getElem?_getD, hi] using hg i
  have hmem : ((List.range o.nInit).map g).getD 0 [] ∈
      KMeans.candidates List.isEmpty o [] (fun i => ((List.range o.nInit).map g).getD i []) := by
    simp only [KMeans.candidates, List.isEmpty_nil, if_true]
    exact List.mem_map.2 ⟨0, List.mem_range.2 h1, rfl⟩
  obtain ⟨r, e, h2, h3, h4, h5⟩ := fit_candidatesR R vmax eq hd hD hk hv [] o
    (fun i => ((List.range o.nInit).map g).getD i []) (by
      intro c h
      have hp := hc c h
      refine ⟨by simpa using hp.length_eq, hp.nodup_iff.2 List.nodup_range, fun m hm => ?_, fun o ho =>
        noTies_perm (ht o ho) (hp.map _)⟩
      have := List.mem_range.1 (hp.subset hm)
      omega) (List.ne_nil_of_mem hmem)
  refine ⟨r, ?_, h2, h3, h4, ?_⟩
  · simp only [fitR, if_true, hm, Option.bind_eq_bind, Option.bind_some, e]
  · have := h5 _ hmem
    rwa [td_perm d n (hc _ hmem)] at this

/-- **C130**, given medoids: one run from these medoids. -/
theorem C130_given (R : Rounding p) (vmax : ℝ) (eq : ℝ → ℝ → Bool) (d : Nat → Nat → ℝ) (n : Nat)
    (ms : List Nat) (hd : IsTable d n) (D : ℝ) (hD : ∀ i o, i < n → o < n → d i o ≤ D) (hk : 2 ≤ ms.length)
    (hms : ∀ m ∈ ms, m < n) (hnd : ms.Nodup) (hv : ∀ i o, i < n → o < n → d i o < vmax)
    (ht : ∀ o, o < n → NoTies eq (dists d ms o)) (o : KMeans.Options) (k : Nat)
    (outcome : Nat → Nat → Nat) :
    ∃ r, fitR R.rnd vmax eq d n k o ms outcome = some r ∧ r.length = ms.length ∧ r.Nodup ∧
      (∀ m ∈ r, m < n) ∧
      td d n r ≤ td d n ms + o.maxIter * n * (((1 + unit p) ^ (2 * n + 2) - 1) * (2 * n * D)) := by
  have hne : ms ≠ [] := by rintro rfl; simp at hk
  obtain ⟨s0, s, e0, e1, -, h2, h3, h4, h5⟩ := candidate_runR R vmax eq hd hD hms hnd hk hv ht o
  refine ⟨s.medoids, ?_, h2, h3, h4, h5⟩
  have hie : ms.isEmpty = false := by simpa using hne
  have ea : ∀ x : ℝ, Stats.argmin none [x] = some 0 := fun x => rfl
  simp only [fitR, if_neg hne, List.range_zero, List.mapM_nil, Option.pure_def, Option.bind_eq_bind,
    Option.bind_some, KMeans.fit, hie, Bool.false_eq_true, if_false, List.mapM_cons, e0, e1, List.map_cons,
    List.map_nil, ea, List.getElem?_cons_zero]

/-! ### Whole distances -/

theorem iterate_congr {S C : Type} {step step' : S → Option S} (cent : S → C) (same : C → C → Bool)
    (o : KMeans.Options) (P : S → Prop) (h : ∀ s, P s → step s = step' s)
    (hp : ∀ s s', P s → step' s = some s' → P s') (iter : Nat) :
    ∀ (s : S) (cand prev : C) (pat : Nat), P s →
      KMeans.iterate step cent same o iter s cand prev pat =
        KMeans.iterate step' cent same o iter s cand prev pat := by
  induction iter with
  | zero => intros; rfl
  | succ iter ih =>
    intro s cand prev pat hs
    rw [KMeans.iterate, KMeans.iterate, h s hs]
    cases e : step' s with
    | none => rfl
    | some s' =>
      have hs' := hp s s' hs e
      simp only [Option.bind_eq_bind, Option.bind_some, ih s' _ _ _ hs']

theorem mapM_congr {α β : Type} {f g : α → Option β} (l : List α) (h : ∀ a ∈ l, f a = g a) :
    l.mapM f = l.mapM g := by
  induction l with
  | nil => rfl
  | cons a l ih =>
    rw [List.mapM_cons, List.mapM_cons, h a (by simp), ih fun b hb => h b (by simp [hb])]

/-- `fit` when no sum of whole numbers of at most `N` is rounded. -/
theorem fit_exact {K : Type} [LinearOrder K] [CommRing K] [IsStrictOrderedRing K] {fl : K → K} {N : Nat}
    (H : Exact fl N) (vmax : K) (eq : K → K → Bool) (d : Nat → Nat → K) (n k D : Nat)
    (hd : ∀ i o, i < n → o < n → ∃ z : ℕ, d i o = z ∧ z ≤ D) (h0 : ∀ i, i < n → d i i = 0)
    (hD : 4 * n * D ≤ N) (hv : ∀ i o, i < n → o < n → d i o < vmax) (stored : List Nat)
    (o : KMeans.Options) (outcome : Nat → Nat → Nat)
    (hst : (stored = [] ∧ 2 ≤ k ∧ k ≤ n ∧ (∀ o, o < n → NoTies eq (dists d (List.range k) o)) ∧
        ∀ i, Random.ValidOutcome k (outcome i)) ∨
      (2 ≤ stored.length ∧ (∀ m ∈ stored, m < n) ∧ ∀ o, o < n → NoTies eq (dists d stored o))) :
    fitR fl vmax eq d n k o stored outcome = fit vmax eq d n k o stored outcome := by
  have hd' : IsTable d n := by
    refine ⟨fun i o hi ho => ?_, h0⟩
    obtain ⟨z, e, -⟩ := hd i o hi ho
    rw [e]
    positivity
  have one : ∀ c : List Nat, 2 ≤ c.length → (∀ m ∈ c, m < n) → (∀ o, o < n → NoTies eq (dists d c o)) →
      ((pamInitR fl vmax eq d n c).bind fun s => KMeans.iterate (pamStepR fl d n) (fun s => s.medoids)
        (fun a b => decide (a = b)) o o.maxIter s c [] 0) =
      ((pamInit vmax eq d n c).bind fun s => KMeans.iterate (pamStep d n) (fun s => s.medoids)
        (fun a b => decide (a = b)) o o.maxIter s c [] 0) := by
    intro c hc hcn hct
    rw [pamInitR_eq H hD hd vmax eq hcn hc (fun o ho m hm => hv m o (hcn m hm) ho) hct]
    obtain ⟨s0, e0, em, h, -⟩ := pamInit_spec vmax eq hc (fun o ho m hm => hv m o (hcn m hm) ho) hct
    rw [e0, Option.bind_some, Option.bind_some]
    refine iterate_congr _ _ o (fun s => (∀ m ∈ s.medoids, m < n) ∧ BufOK d n s) ?_ ?_ _ _ _ _ _
      ⟨by rw [em]; exact hcn, h⟩
    · rintro s ⟨hm, hs⟩
      exact stepLoopR_eq H hD hd' hd (List.range n) s (fun c hc => List.mem_range.1 hc) hm hs
    · rintro s s' ⟨hm, hs⟩ e
      obtain ⟨s2, e2, hs2, hm2, -⟩ := run_spec hd' hm hs 1
      simp only [KMeans.runN, Option.bind_some] at e2
      rw [e, Option.some.injEq] at e2
      subst e2
      exact ⟨hm2, hs2⟩
  rcases hst with ⟨rfl, hk, hkn, ht, hval⟩ | ⟨h2, hm, hnt⟩
  · choose g eg hg using fun i => fromInterval_zero (outcome i) hkn (hval i)
    have hm : (List.range o.nInit).mapM (fun i => Random.fromInterval (outcome i) k 0 n) =
        some ((List.range o.nInit).map g) := KMeans.mapM_some _ _ _ (fun i _ => eg i)
    simp only [fitR, fit, if_true, hm, Option.bind_eq_bind, Option.bind_some, KMeans.fit, List.isEmpty_nil]
    rw [mapM_congr]
    intro c hc
    obtain ⟨i, hi, rfl⟩ := List.mem_map.1 hc
    have hp : (((List.range o.nInit).map g).getD i []).Perm (List.range k) := by
      simpa [List.getD_eq_getElem?_getD, List.mem_range.1 hi] using hg i
    refine one _ (by rw [hp.length_eq]; simpa using hk) (fun m hm => ?_)
      (fun o ho => noTies_perm (ht o ho) (hp.map _))
    have := List.mem_range.1 (hp.subset hm)
    omega
  · have hne : stored ≠ [] := by rintro rfl; simp at h2
    have hie : stored.isEmpty = false := by simpa using hne
    simp only [fitR, fit, if_neg hne, List.range_zero, List.mapM_nil, Option.pure_def, Option.bind_eq_bind,
      Option.bind_some, KMeans.fit, hie, Bool.false_eq_true, if_false]
    rw [mapM_congr]
    intro c hc
    rw [List.mem_singleton] at hc
    subst hc
    exact one c h2 hm hnt

/-- **C130**, whole distances.  If the distances are whole numbers of at most `D` and `4 n D ≤ 2 ^ p`, `fit`
returns what it returns in exact arithmetic, so that C73 holds of it as it stands. -/
theorem C130_whole (R : Rounding p) (vmax : ℝ) (eq : ℝ → ℝ → Bool) (d : Nat → Nat → ℝ) (n k D : Nat)
    (hd : ∀ i o, i < n → o < n → ∃ z : ℕ, d i o = z ∧ z ≤ D) (h0 : ∀ i, i < n → d i i = 0)
    (hD : 4 * n * D ≤ 2 ^ p) (hv : ∀ i o, i < n → o < n → d i o < vmax) (stored : List Nat)
    (o : KMeans.Options) (outcome : Nat → Nat → Nat)
    (hst : (stored = [] ∧ 2 ≤ k ∧ k ≤ n ∧ (∀ o, o < n → NoTies eq (dists d (List.range k) o)) ∧
        ∀ i, Random.ValidOutcome k (outcome i)) ∨
      (2 ≤ stored.length ∧ (∀ m ∈ stored, m < n) ∧ ∀ o, o < n → NoTies eq (dists d stored o))) :
    fitR R.rnd vmax eq d n k o stored outcome = fit vmax eq d n k o stored outcome :=
  fit_exact (exact_whole R) vmax eq d n k D hd h0 hD hv stored o outcome hst

/-! ### Samples -/

theorem td_scale {d e : Nat → Nat → ℝ} {n : Nat} {F : ℝ} (hF : 0 ≤ F)
    (h : ∀ i o, i < n → o < n → d i o ≤ F * e i o) {ms : List Nat} (hms : ∀ m ∈ ms, m < n) :
    td d n ms ≤ F * td e n ms := by
  unfold td
  rw [← List.sum_map_mul_left]
  refine List.sum_le_sum fun o ho => ?_
  have ho := List.mem_range.1 ho
  cases h1 : (dists e ms o).min? with
  | none =>
    have : ms = [] := by simpa [dists] using List.min?_eq_none_iff.1 h1
    subst this
    simp [dists]
  | some x =>
    obtain ⟨hx, -⟩ := List.min?_eq_some_iff.1 h1
    obtain ⟨m, hm, rfl⟩ := List.mem_map.1 hx
    cases h2 : (dists d ms o).min? with
    | none =>
      have : ms = [] := by simpa [dists] using List.min?_eq_none_iff.1 h2
      subst this
      simp at hm
    | some y =>
      obtain ⟨-, hy⟩ := List.min?_eq_some_iff.1 h2
      simp only [Option.getD_some]
      exact (hy _ (List.mem_map.2 ⟨m, hm, rfl⟩)).trans (h m o (hms m hm) ho)

open Verif.KMeansR in
theorem rdist_table {nf : Nat} (R : Rounding p) {ord : (Fin nf → ℝ) → (Fin nf → ℝ) → Order}
    (ho : ∀ x c, (ord x c).Sums nf) (xs : Nat → Fin nf → ℝ) (n : Nat) :
    IsTable (fun i o => rdist R ord (xs i) (xs o)) n := by
  refine ⟨fun i o _ _ => Verif.Rounding.distR_nonneg R _ _ _, fun i _ => ?_⟩
  have h1 := (rdist_error R ho (xs i) (xs i)).1
  have h2 : KMeans.edist (xs i) (xs i) = 0 := by simp [KMeans.edist, KMeans.sq]
  rw [h2, mul_zero] at h1
  exact le_antisymm h1 (Verif.Rounding.distR_nonneg R _ _ _)

open Verif.KMeansR in
/-- **C130**, from samples.  The Euclidean distances are computed from `nf` features, in any order of
summation.  The deviations are now those of the true distances: `fit` returns `k` distinct samples, and up to
the factor of the distances, twice, the bound of `C130_fit` holds. -/
theorem C130_samples {nf : Nat} (R : Rounding p) (vmax : ℝ) (eq : ℝ → ℝ → Bool)
    (ord : (Fin nf → ℝ) → (Fin nf → ℝ) → Order) (hord : ∀ x c, (ord x c).Sums nf)
    (xs : Nat → Fin nf → ℝ) (n k : Nat) (D : ℝ)
    (hD : ∀ i o, i < n → o < n → rdist R ord (xs i) (xs o) ≤ D) (hDv : D < vmax) (hk : 2 ≤ k) (hkn : k ≤ n)
    (ht : ∀ o, o < n → NoTies eq (dists (fun i o => rdist R ord (xs i) (xs o)) (List.range k) o))
    (hn : (1 + unit p) ^ n ≤ 2)
    (o : KMeans.Options) (outcome : Nat → Nat → Nat) (h1 : 1 ≤ o.nInit)
    (hval : ∀ i, Random.ValidOutcome k (outcome i)) :
    ∃ r, fitR R.rnd vmax eq (fun i o => rdist R ord (xs i) (xs o)) n k o [] outcome = some r ∧
      r.length = k ∧ r.Nodup ∧ (∀ m ∈ r, m < n) ∧
      (2 - (1 + unit p) ^ n) * td (fun i o => KMeans.edist (xs i) (xs o)) n r ≤
        Rounding.relErr p nf * ((1 + unit p) ^ n *
          (Rounding.relErr p nf * td (fun i o => KMeans.edist (xs i) (xs o)) n (List.range k) +
            o.maxIter * n * (((1 + unit p) ^ (2 * n + 2) - 1) * (2 * n * D)))) := by
  obtain ⟨r, e, a1, a2, a3, a4⟩ := C130_fit R vmax eq _ n k (rdist_table R hord xs n) D hD hk hkn
    (fun i o hi ho => (hD i o hi ho).trans_lt hDv) ht o outcome h1 hval
  refine ⟨r, e, a1, a2, a3, ?_⟩
  have hF := Verif.Rounding.relErr_nonneg (p := p) nf
  have hq : 0 ≤ (1 + unit p) ^ n := pow_nonneg (by linarith [Verif.Rounding.Rounding.unit_pos (p := p)]) _
  have b1 := td_scale (d := fun i o => KMeans.edist (xs i) (xs o)) (n := n) hF
    (fun i o _ _ => (rdist_error R hord (xs i) (xs o)).2) a3
  have b2 := td_scale (e := fun i o => KMeans.edist (xs i) (xs o)) (n := n) hF
    (fun i o _ _ => (rdist_error R hord (xs i) (xs o)).1) (ms := List.range k)
    (fun m hm => lt_of_lt_of_le (List.mem_range.1 hm) hkn)
  refine (mul_le_mul_of_nonneg_left b1 (by linarith)).trans ?_
  rw [mul_left_comm]
  refine mul_le_mul_of_nonneg_left (a4.trans (mul_le_mul_of_nonneg_left ?_ hq)) hF
  linarith

/-! ### Examples -/

/-- The hypotheses of `C130_fit` and `C130_given` hold for the table of `C129_worse_counterexample`. -/
example (R : Rounding 24) (outcome : Nat → Nat → Nat) (hval : ∀ i, Random.ValidOutcome 2 (outcome i)) :
    (∃ r, fitR R.rnd 1000000000 eqReal farR 7 2 { nInit := 3 } [] outcome = some r ∧ r.length = 2 ∧ r.Nodup) ∧
    ∃ r, fitR R.rnd 1000000000 eqReal farR 7 2 {} [0, 1] outcome = some r ∧ r.length = 2 ∧ r.Nodup := by
  obtain ⟨h1, h2, -, h4, -⟩ := far_hyp
  have hv : ∀ i o, i < 7 → o < 7 → farR i o < 1000000000 :=
    fun i o hi ho => (h2 i o hi ho).trans_lt (by norm_num)
  constructor
  · obtain ⟨r, e, a, b, -⟩ := C130_fit R 1000000000 eqReal farR 7 2 h1 _ h2 (by norm_num) (by norm_num) hv h4
      { nInit := 3 } outcome (by decide) hval
    exact ⟨r, e, a, b⟩
  · obtain ⟨r, e, a, b, -⟩ := C130_given R 1000000000 eqReal farR 7 [0, 1] h1 _ h2 (by decide)
      (by decide) (by decide) hv h4 {} 2 outcome
    exact ⟨r, e, a, b⟩

/-- The six points of C73 as real numbers: whole distances of at most 22. -/
noncomputable def lineR : Nat → Nat → ℝ := fun i o => (line [0, 1, 5, 13, 20, 22] i o : ℤ)

/-- `C130_whole` and C73 together: in double precision `fit` returns two distinct samples of a total deviation
of at most 56. -/
example (R : Rounding 53) (o : KMeans.Options) (h1 : 1 ≤ o.nInit) (outcome : Nat → Nat → Nat)
    (hval : ∀ i, Random.ValidOutcome 2 (outcome i)) :
    ∃ r, fitR R.rnd 1000 eqReal lineR 6 2 o [] outcome = some r ∧ r.length = 2 ∧
      td lineR 6 r ≤ td lineR 6 [0, 1] := by
  have hw : ∀ i < 6, ∀ o < 6, 0 ≤ line [0, 1, 5, 13, 20, 22] i o ∧ line [0, 1, 5, 13, 20, 22] i o ≤ 22 := by
    decide +kernel
  have h0 : ∀ i < 6, line [0, 1, 5, 13, 20, 22] i i = 0 := by decide +kernel
  have hd : ∀ i o, i < 6 → o < 6 → ∃ z : ℕ, lineR i o = z ∧ z ≤ 22 := by
    intro i o hi ho
    obtain ⟨z, hz⟩ := Int.eq_ofNat_of_zero_le (hw i hi o ho).1
    refine ⟨z, by rw [lineR, hz]; simp, ?_⟩
    have := (hw i hi o ho).2
    omega
  have h0' : ∀ i, i < 6 → lineR i i = 0 := fun i hi => by rw [lineR, h0 i hi]; simp
  have hv : ∀ i o, i < 6 → o < 6 → lineR i o < 1000 := by
    intro i o hi ho
    obtain ⟨z, e, hz⟩ := hd i o hi ho
    rw [e]
    have : (z : ℝ) ≤ 22 := by exact_mod_cast hz
    linarith
  have hne : ∀ o < 6, line [0, 1, 5, 13, 20, 22] 0 o ≠ line [0, 1, 5, 13, 20, 22] 1 o := by decide +kernel
  have ht : ∀ o, o < 6 → NoTies eqReal (dists lineR (List.range 2) o) := by
    intro o ho
    have h2 : lineR 0 o ≠ lineR 1 o := by
      unfold lineR
      exact_mod_cast hne o ho
    rw [noTies_iff, show dists lineR (List.range 2) o = [lineR 0 o, lineR 1 o] from rfl]
    simp [eqReal, h2, h2.symm]
  have hd' : IsTable lineR 6 := by
    refine ⟨fun i o hi ho => ?_, h0'⟩
    obtain ⟨z, e, -⟩ := hd i o hi ho
    rw [e]
    positivity
  obtain ⟨r, e, a, -, c⟩ := C73_never_worse_than_start 1000 eqReal lineR 6 2 hd' (by norm_num) (by norm_num)
    hv o outcome h1 hval
  have hw' := C130_whole R 1000 eqReal lineR 6 2 22 hd h0' (by norm_num) hv [] o outcome
    (Or.inl ⟨rfl, by norm_num, by norm_num, ht, hval⟩)
  exact ⟨r, hw'.trans e, a, c⟩

open Verif.KMeansR in
/-- Three samples of one feature. -/
example (R : Rounding 24) (ord : (Fin 1 → ℝ) → (Fin 1 → ℝ) → Order) (hord : ∀ x c, (ord x c).Sums 1)
    (outcome : Nat → Nat → Nat) (hval : ∀ i, Random.ValidOutcome 2 (outcome i)) :
    ∃ r, fitR R.rnd 1000 eqReal (fun i o => rdist R ord (fun _ => ([0, 1, 5] : List ℝ).getD i 0)
        (fun _ => ([0, 1, 5] : List ℝ).getD o 0)) 3 2 {} [] outcome = some r ∧ r.length = 2 ∧ r.Nodup := by
  have hu : unit 24 ≤ 1 / 1000 := by norm_num [Verif.Rounding.unit]
  have hu0 := Verif.Rounding.Rounding.unit_pos (p := 24)
  have hF : Rounding.relErr 24 1 ≤ 11 / 10 :=
    (Verif.Rounding.relErr_le (by push_cast; linarith)).trans (by push_cast; linarith)
  have hF0 := Verif.Rounding.relErr_nonneg (p := 24) 1
  have hed : ∀ a b : ℝ, KMeans.edist (fun _ : Fin 1 => a) (fun _ => b) = |a - b| := by
    intro a b
    simp [KMeans.edist, KMeans.sq, Real.sqrt_sq_eq_abs]
  have hb : ∀ a b : ℝ, rdist R ord (fun _ => a) (fun _ => b) ≤ 11 / 10 * |a - b| ∧
      |a - b| ≤ 11 / 10 * rdist R ord (fun _ => a) (fun _ => b) := by
    intro a b
    have h := rdist_error R hord (fun _ => a) (fun _ => b)
    rw [hed] at h
    have hn : 0 ≤ rdist R ord (fun _ => a) (fun _ => b) := Verif.Rounding.distR_nonneg R _ _ _
    exact ⟨h.1.trans (mul_le_mul_of_nonneg_right hF (abs_nonneg _)),
      h.2.trans (mul_le_mul_of_nonneg_right hF hn)⟩
  have hD : ∀ i o, i < 3 → o < 3 → rdist R ord (fun _ => ([0, 1, 5] : List ℝ).getD i 0)
      (fun _ => ([0, 1, 5] : List ℝ).getD o 0) ≤ 6 := by
    intro i o hi ho
    refine (hb _ _).1.trans ?_
    have h5 : ∀ i < 3, 0 ≤ ([0, 1, 5] : List ℝ).getD i 0 ∧ ([0, 1, 5] : List ℝ).getD i 0 ≤ 5 := by
      intro i hi
      rcases (by omega : i = 0 ∨ i = 1 ∨ i = 2) with rfl | rfl | rfl <;> norm_num
    have : |([0, 1, 5] : List ℝ).getD i 0 - ([0, 1, 5] : List ℝ).getD o 0| ≤ 5 :=
      abs_le.2 ⟨by linarith [h5 i hi, h5 o ho], by linarith [h5 i hi, h5 o ho]⟩
    linarith
  have ht : ∀ o, o < 3 → NoTies eqReal (dists (fun i o => rdist R ord (fun _ => ([0, 1, 5] : List ℝ).getD i 0)
      (fun _ => ([0, 1, 5] : List ℝ).getD o 0)) (List.range 2) o) := by
    intro o ho
    have key : rdist R ord (fun _ => (0 : ℝ)) (fun _ => ([0, 1, 5] : List ℝ).getD o 0) ≠
        rdist R ord (fun _ => (1 : ℝ)) (fun _ => ([0, 1, 5] : List ℝ).getD o 0) := by
      intro h
      have a1 := hb 0 (([0, 1, 5] : List ℝ).getD o 0)
      have a2 := hb 1 (([0, 1, 5] : List ℝ).getD o 0)
      rw [h] at a1
      rcases (by omega : o = 0 ∨ o = 1 ∨ o = 2) with rfl | rfl | rfl <;> norm_num at a1 a2 <;> linarith
    rw [noTies_iff, show dists (fun i o => rdist R ord (fun _ => ([0, 1, 5] : List ℝ).getD i 0)
      (fun _ => ([0, 1, 5] : List ℝ).getD o 0)) (List.range 2) o =
        [rdist R ord (fun _ => (0 : ℝ)) (fun _ => ([0, 1, 5] : List ℝ).getD o 0),
        rdist R ord (fun _ => (1 : ℝ)) (fun _ => ([0, 1, 5] : List ℝ).getD o 0)] from rfl]
    generalize rdist R ord (fun _ => (0 : ℝ)) (fun _ => ([0, 1, 5] : List ℝ).getD o 0) = x at key ⊢
    generalize rdist R ord (fun _ => (1 : ℝ)) (fun _ => ([0, 1, 5] : List ℝ).getD o 0) = y at key ⊢
    simp [eqReal, key, Ne.symm key]
  have hp : (1 + unit 24) ^ 3 ≤ 2 := by
    have : (1 + unit 24) ^ 3 ≤ (1 + 1 / 1000) ^ 3 := pow_le_pow_left₀ (by linarith) (by linarith) 3
    linarith
  obtain ⟨r, e, a, b, -⟩ := C130_samples R 1000 eqReal ord hord (fun i _ => ([0, 1, 5] : List ℝ).getD i 0) 3 2 6
    hD (by norm_num) (by norm_num) (by norm_num) ht hp {} outcome (by decide) hval
  exact ⟨r, e, a, b⟩

end Verif.KMedoids
