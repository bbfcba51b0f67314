import Verif.Model.KMedoidsFit
import Verif.Props.FasterPAM
import Verif.Props.KMedoids
import Verif.Props.KMeansFit
import Verif.Props.Random

/-
Property C73: `KMedoids::fit` end to end.
-/

namespace Verif.KMedoids

open Spec

set_option linter.unusedSectionVars false

section

variable {K : Type} [LinearOrder K] [CommRing K] [IsStrictOrderedRing K]

/-- No exchange of a medoid with a sample from `k` on lowers the total deviation. -/
def LocalOptimum (d : Nat → Nat → K) (n k : Nat) (ms : List Nat) : Prop :=
  ∀ c, k ≤ c → c < n → ∀ j, j < ms.length → td d n ms ≤ td d n (ms.set j c)

theorem noTies_iff (eq : K → K → Bool) (l : List K) :
    NoTies eq l ↔ l.Pairwise fun x y => (x ≠ y ∧ eq x y = false) ∧ (y ≠ x ∧ eq y x = false) := by
  rw [List.pairwise_iff_getElem]
  constructor
  · intro h i j hi hj hij
    exact ⟨h i j _ _ (by omega) (List.getElem?_eq_getElem hi) (List.getElem?_eq_getElem hj),
      h j i _ _ (by omega) (List.getElem?_eq_getElem hj) (List.getElem?_eq_getElem hi)⟩
  · intro h i j x y hij hx hy
    obtain ⟨hi, rfl⟩ := List.getElem?_eq_some_iff.1 hx
    obtain ⟨hj, rfl⟩ := List.getElem?_eq_some_iff.1 hy
    rcases Nat.lt_or_gt_of_ne hij with h1 | h1
    · exact (h i j hi hj h1).1
    · exact (h j i hj hi h1).2

theorem noTies_perm {eq : K → K → Bool} {l l' : List K} (h : NoTies eq l) (hp : l'.Perm l) : NoTies eq l' := by
  rw [noTies_iff] at h ⊢
  exact (hp.pairwise_iff (fun h => ⟨h.2, h.1⟩)).2 h

theorem td_perm (d : Nat → Nat → K) (n : Nat) {a b : List Nat} (h : a.Perm b) : td d n a = td d n b := by
  unfold td
  congr 1
  refine List.map_congr_left fun o _ => ?_
  congr 1
  ext v
  simp only [List.min?_eq_some_iff, dists, (h.map (d · o)).mem_iff]

/-- One candidate. -/
theorem candidate_run (vmax : K) (eq : K → K → Bool) (d : Nat → Nat → K) (n : Nat) (ms : List Nat)
    (hd : IsTable d n) (hms : ∀ m ∈ ms, m < n) (hnd : ms.Nodup) (hk : 2 ≤ ms.length)
    (hv : ∀ i o, i < n → o < n → d i o < vmax) (ht : ∀ o, o < n → NoTies eq (dists d ms o)) :
    ∃ s0 N, pamInit vmax eq d n ms = some s0 ∧ ∀ o : KMeans.Options, ∃ s,
      KMeans.iterate (pamStep d n) (fun s => s.medoids) (fun a b => decide (a = b)) o o.maxIter s0 ms [] 0 =
        some (s, s.medoids) ∧
      s.loss = td d n s.medoids ∧ s.medoids.length = ms.length ∧ s.medoids.Nodup ∧
      (∀ m ∈ s.medoids, m < n) ∧ td d n s.medoids ≤ td d n ms ∧
      (N ≤ o.maxIter → LocalOptimum d n ms.length s.medoids) := by
  obtain ⟨s0, e0, em, h0, -⟩ := pamInit_spec vmax eq hk (fun o ho m hm => hv m o (hms m hm) ho) ht
  have hr := fun t => run_spec hd (by rw [em]; exact hms) h0 t
  choose f ef hf hmf hlf hnf hlef using hr
  have f0 : f 0 = s0 := by
    have := ef 0
    simp only [KMeans.runN, Option.some.injEq] at this
    exact this.symm
  have hstep : ∀ t, pamStep d n (f t) = some (f (t + 1)) := by
    intro t
    have := ef (t + 1)
    simp only [KMeans.runN, ef t, Option.bind_some] at this
    exact this
  obtain ⟨N, sN, hN⟩ := C48_terminates vmax eq d n ms hd hms hk hv
  have hfix : ∀ t, N ≤ t → f t = sN := by
    intro t ht
    have := hN t ht
    rw [e0, Option.bind_some, ef t, Option.some.injEq] at this
    exact this
  have hopt : ∀ t, (f (t + 1)).medoids = (f t).medoids → LocalOptimum d n ms.length (f t).medoids := by
    intro t h c hck hc j hj
    exact C49_from_k_partial d n hd (f t) (f (t + 1)) (hmf t) (hf t) (hstep t) h c hc
      (by rw [hlf t, em]; exact hck) j hj
  refine ⟨s0, N, e0, fun o => ?_⟩
  have key : ∀ T, (∀ c, c = (if T = 0 then ms else (f T).medoids) → c = (f T).medoids) := by
    rintro T c rfl
    split
    · rename_i h; subst h; rw [f0, em]
    · rfl
  have fin : ∀ T, (N ≤ o.maxIter → LocalOptimum d n ms.length (f T).medoids) → _ :=
    fun T hT => (⟨(hf T).loss, by rw [hlf T, em], hnf T (by rw [em]; exact hnd), hmf T,
      by have := hlef T; rw [em] at this; exact this, hT⟩ :
      (f T).loss = td d n (f T).medoids ∧ (f T).medoids.length = ms.length ∧ (f T).medoids.Nodup ∧
      (∀ m ∈ (f T).medoids, m < n) ∧ td d n (f T).medoids ≤ td d n ms ∧
      (N ≤ o.maxIter → LocalOptimum d n ms.length (f T).medoids))
  have last : N ≤ o.maxIter → LocalOptimum d n ms.length (f o.maxIter).medoids := by
    intro h
    apply hopt
    rw [hfix _ h, hfix _ (by omega)]
  cases hes : o.earlyStopping with
  | true =>
    obtain ⟨T, h1, e, h2, _⟩ := KMeans.C44_early_stopping (pamStep d n) (fun s => s.medoids)
      (fun a b => decide (a = b)) [] o hes f hstep ms
    rw [f0] at e
    refine ⟨f T, by rw [e]; exact congrArg (fun c => some (f T, c)) (key T _ rfl), fin T ?_⟩
    intro hN'
    rcases Nat.lt_or_ge T o.maxIter with h | h
    · obtain ⟨h3, h4⟩ := h2 h
      have h5 := h4 0 (by omega)
      unfold KMeans.Repeats at h5
      rw [Nat.sub_zero, show T - 1 + 1 = T by omega] at h5
      have h6 := of_decide_eq_true h5
      by_cases hT : T - 1 = 0
      · rw [if_pos hT] at h6
        dsimp only at h6
        have := hlf T
        rw [h6, em] at this
        simp at this
        omega
      · rw [if_neg hT] at h6
        dsimp only at h6
        rw [h6]
        apply hopt
        rw [show T - 1 + 1 = T by omega]
        exact h6
    · rw [show T = o.maxIter by omega]
      exact last hN'
  | false =>
    have e := KMeans.C44_all_iterations (pamStep d n) (fun s => s.medoids)
      (fun a b => decide (a = b)) [] o hes f hstep ms
    rw [f0] at e
    exact ⟨f o.maxIter, by rw [e]; exact congrArg (fun c => some (f o.maxIter, c)) (key _ _ rfl), fin _ last⟩

/-- Several candidates: the result is that of one of them, and at least as good as all. -/
theorem fit_candidates (vmax : K) (eq : K → K → Bool) (d : Nat → Nat → K) (n k : Nat)
    (hd : IsTable d n) (hk : 2 ≤ k) (hv : ∀ i o, i < n → o < n → d i o < vmax)
    (stored : List Nat) (Cs : List (List Nat))
    (hC : ∀ c ∈ Cs, c.length = k ∧ c.Nodup ∧ (∀ m ∈ c, m < n) ∧ ∀ o, o < n → NoTies eq (dists d c o)) :
    ∃ N, ∀ (o : KMeans.Options) (drawn : Nat → List Nat),
      (∀ c ∈ KMeans.candidates List.isEmpty o stored drawn, c ∈ Cs) →
      KMeans.candidates List.isEmpty o stored drawn ≠ [] →
      ∃ r, KMeans.fit (pamInit vmax eq d n) (pamStep d n) (fun s => s.medoids) (fun s => s.loss)
          (fun a b => decide (a = b)) List.isEmpty [] o stored drawn = some r ∧
        r.length = k ∧ r.Nodup ∧ (∀ m ∈ r, m < n) ∧
        (∀ c ∈ KMeans.candidates List.isEmpty o stored drawn, td d n r ≤ td d n c) ∧
        (N ≤ o.maxIter → LocalOptimum d n k r) := by
  have run : ∀ c ∈ Cs, _ := fun c hc => candidate_run vmax eq d n c hd (hC c hc).2.2.1 (hC c hc).2.1
    (by rw [(hC c hc).1]; exact hk) hv (hC c hc).2.2.2
  choose s0 N0 e0 hrun using run
  obtain ⟨N, hN⟩ : ∃ N, ∀ c, ∀ hc : c ∈ Cs, N0 c hc ≤ N := by
    clear hrun e0
    induction Cs with
    | nil => exact ⟨0, fun c hc => by cases hc⟩
    | cons a l ih =>
      obtain ⟨N, h⟩ := ih (fun c hc => hC c (List.mem_cons_of_mem _ hc))
        (fun c hc => s0 c (List.mem_cons_of_mem _ hc)) (fun c hc => N0 c (List.mem_cons_of_mem _ hc))
      refine ⟨max N (N0 a List.mem_cons_self), fun c hc => ?_⟩
      rcases List.mem_cons.1 hc with rfl | h1
      · exact le_max_right _ _
      · exact (h c h1).trans (le_max_left _ _)
  refine ⟨N, fun o drawn hsub hne => ?_⟩
  classical
  choose s1 e1 h1 h2 h3 h4 h5 h6 using fun c hc => hrun c hc o
  let R : List Nat → PState K × List Nat := fun c =>
    if hc : c ∈ Cs then (s1 c hc, (s1 c hc).medoids) else (⟨[], [], [], 0⟩, [])
  have hR : ∀ c (hc : c ∈ Cs), R c = (s1 c hc, (s1 c hc).medoids) := fun c hc => dif_pos hc
  obtain ⟨i, c, hc, e, hbest, _⟩ := KMeans.C44_best (pamInit vmax eq d n) (pamStep d n) (fun s => s.medoids)
    (fun s => s.loss) (fun a b => decide (a = b)) List.isEmpty [] o stored drawn R
    (fun c hc => ⟨s0 c (hsub c hc), e0 c (hsub c hc), by rw [hR c (hsub c hc)]; exact e1 c (hsub c hc)⟩) hne
  have hcm := List.mem_of_getElem? hc
  have hcC := hsub c hcm
  rw [hR c hcC] at e hbest
  refine ⟨_, e, by rw [h2 c hcC, (hC c hcC).1], h3 c hcC, h4 c hcC, ?_, ?_⟩
  · intro c' hc'
    have := hbest c' hc'
    rw [hR c' (hsub c' hc')] at this
    dsimp only at this
    rw [h1, h1] at this
    exact this.trans (h5 _ _)
  · intro h
    have := h6 c hcC ((hN c hcC).trans h)
    rwa [(hC c hcC).1] at this

theorem fromInterval_zero (outcome : Nat → Nat) {k n : Nat} (hkn : k ≤ n) (hv : Random.ValidOutcome k outcome) :
    ∃ r, Random.fromInterval outcome k 0 n = some r ∧ r.Perm (List.range k) := by
  obtain ⟨r, e, _, hp, _⟩ := (Random.C54_select_partial (List.range' 0 (n - 0)) k (by simpa using hkn)).1 outcome hv
  refine ⟨r, e, hp.trans (List.Perm.of_eq ?_)⟩
  rw [List.range'_eq_map_range, ← List.map_take, List.take_range]
  simp [hkn]

/-- One candidate, with or without ties. -/
theorem candidate_run_any (vmax : K) (eq : K → K → Bool) (d : Nat → Nat → K) (n : Nat) (ms : List Nat)
    (hd : IsTable d n) (hms : ∀ m ∈ ms, m < n) (hk : 2 ≤ ms.length)
    (hv : ∀ i o, i < n → o < n → d i o < vmax) (o : KMeans.Options) :
    ∃ s0 s, pamInit vmax eq d n ms = some s0 ∧
      KMeans.iterate (pamStep d n) (fun s => s.medoids) (fun a b => decide (a = b)) o o.maxIter s0 ms [] 0 =
        some (s, s.medoids) ∧
      s.medoids.length = ms.length ∧ (∀ m ∈ s.medoids, m < n) ∧ td d n s.medoids ≤ s.loss ∧
      s.loss ≤ td d n ms := by
  obtain ⟨s0, e0, em, h0, hl0⟩ := pamInit_wspec vmax eq hk hms hv
  have hr := fun t => run_wspec hd hv h0 t
  choose f ef hf hlf hlef using hr
  have f0 : f 0 = s0 := by
    have := ef 0
    simp only [KMeans.runN, Option.some.injEq] at this
    exact this.symm
  have hstep : ∀ t, pamStep d n (f t) = some (f (t + 1)) := by
    intro t
    have := ef (t + 1)
    simp only [KMeans.runN, ef t, Option.bind_some] at this
    exact this
  have key : ∀ T, (∀ c, c = (if T = 0 then ms else (f T).medoids) → c = (f T).medoids) := by
    rintro T c rfl
    split
    · rename_i h; subst h; rw [f0, em]
    · rfl
  have fin : ∀ T, (f T).medoids.length = ms.length ∧ (∀ m ∈ (f T).medoids, m < n) ∧
      td d n (f T).medoids ≤ (f T).loss ∧ (f T).loss ≤ td d n ms :=
    fun T => ⟨by rw [hlf T, em], (hf T).range, td_le_cached (hf T), hl0 ▸ hlef T⟩
  cases hes : o.earlyStopping with
  | true =>
    obtain ⟨T, -, e, -, -⟩ := KMeans.C44_early_stopping (pamStep d n) (fun s => s.medoids)
      (fun a b => decide (a = b)) [] o hes f hstep ms
    rw [f0] at e
    exact ⟨s0, f T, e0, by rw [e]; exact congrArg (fun c => some (f T, c)) (key T _ rfl), fin T⟩
  | false =>
    have e := KMeans.C44_all_iterations (pamStep d n) (fun s => s.medoids)
      (fun a b => decide (a = b)) [] o hes f hstep ms
    rw [f0] at e
    exact ⟨s0, f o.maxIter, e0, by rw [e]; exact congrArg (fun c => some (f o.maxIter, c)) (key _ _ rfl),
      fin _⟩

/-- Several candidates, with or without ties. -/
theorem fit_candidates_any (vmax : K) (eq : K → K → Bool) (d : Nat → Nat → K) (n k : Nat)
    (hd : IsTable d n) (hk : 2 ≤ k) (hv : ∀ i o, i < n → o < n → d i o < vmax)
    (stored : List Nat) (o : KMeans.Options) (drawn : Nat → List Nat)
    (hC : ∀ c ∈ KMeans.candidates List.isEmpty o stored drawn, c.length = k ∧ ∀ m ∈ c, m < n)
    (hne : KMeans.candidates List.isEmpty o stored drawn ≠ []) :
    ∃ r, KMeans.fit (pamInit vmax eq d n) (pamStep d n) (fun s => s.medoids) (fun s => s.loss)
        (fun a b => decide (a = b)) List.isEmpty [] o stored drawn = some r ∧
      r.length = k ∧ (∀ m ∈ r, m < n) ∧
      ∀ c ∈ KMeans.candidates List.isEmpty o stored drawn, td d n r ≤ td d n c := by
  have run : ∀ c ∈ KMeans.candidates List.isEmpty o stored drawn, _ := fun c hc =>
    candidate_run_any vmax eq d n c hd (hC c hc).2 (by rw [(hC c hc).1]; exact hk) hv o
  classical
  choose s0 s1 e0 e1 h1 h2 h3 h4 using run
  let R : List Nat → PState K × List Nat := fun c =>
    if hc : c ∈ KMeans.candidates List.isEmpty o stored drawn then (s1 c hc, (s1 c hc).medoids)
    else (⟨[], [], [], 0⟩, [])
  have hR : ∀ c (hc : c ∈ KMeans.candidates List.isEmpty o stored drawn),
      R c = (s1 c hc, (s1 c hc).medoids) := fun c hc => dif_pos hc
  obtain ⟨i, c, hc, e, hbest, _⟩ := KMeans.C44_best (pamInit vmax eq d n) (pamStep d n) (fun s => s.medoids)
    (fun s => s.loss) (fun a b => decide (a = b)) List.isEmpty [] o stored drawn R
    (fun c hc => ⟨s0 c hc, e0 c hc, by rw [hR c hc]; exact e1 c hc⟩) hne
  have hcm := List.mem_of_getElem? hc
  rw [hR c hcm] at e hbest
  refine ⟨_, e, by rw [h1 c hcm, (hC c hcm).1], h2 c hcm, ?_⟩
  intro c' hc'
  have := hbest c' hc'
  rw [hR c' hc'] at this
  dsimp only at this
  exact (h3 c hcm).trans (this.trans (h4 _ _))

/-- **C73**, with or without ties: whatever the options and the outcomes of the generator, `fit` returns
`k` sample indices whose total deviation is at most that of the first `k` samples, which are the start of
every candidate. -/
theorem C73_never_worse_than_start (vmax : K) (eq : K → K → Bool) (d : Nat → Nat → K) (n k : Nat)
    (hd : IsTable d n) (hk : 2 ≤ k) (hkn : k ≤ n) (hv : ∀ i o, i < n → o < n → d i o < vmax)
    (o : KMeans.Options) (outcome : Nat → Nat → Nat) (h1 : 1 ≤ o.nInit)
    (hval : ∀ i, Random.ValidOutcome k (outcome i)) :
    ∃ r, fit vmax eq d n k o [] outcome = some r ∧ r.length = k ∧ (∀ m ∈ r, m < n) ∧
      td d n r ≤ td d n (List.range k) := by
  choose g eg hg using fun i => fromInterval_zero (outcome i) hkn (hval i)
  have hm : (List.range o.nInit).mapM (fun i => Random.fromInterval (outcome i) k 0 n) =
      some ((List.range o.nInit).map g) := KMeans.mapM_some _ _ _ (fun i _ => eg i)
  have hc : ∀ c ∈ KMeans.candidates List.isEmpty o [] (fun i => ((List.range o.nInit).map g).getD i []),
      c.Perm (List.range k) := by
    intro c hc
    simp only [KMeans.candidates, List.isEmpty_nil, if_true, List.mem_map, List.mem_range] at hc
    obtain ⟨i, hi, rfl⟩ := hc
    simpa [List.getD_eq_getElem?_getD, hi] using hg i
  have hmem : ((List.range o.nInit).map g).getD 0 [] ∈
      KMeans.candidates List.isEmpty o [] (fun i => ((List.range o.nInit).map g).getD i []) := by
    simp only [KMeans.candidates, List.isEmpty_nil, if_true]
    exact List.mem_map.2 ⟨0, List.mem_range.2 h1, rfl⟩
  obtain ⟨r, e, h2, h4, h5⟩ := fit_candidates_any vmax eq d n k hd hk hv [] o
    (fun i => ((List.range o.nInit).map g).getD i []) (by
      intro c h
      have hp := hc c h
      refine ⟨by simpa using hp.length_eq, fun m hm => ?_⟩
      have := List.mem_range.1 (hp.subset hm)
      omega) (List.ne_nil_of_mem hmem)
  refine ⟨r, ?_, h2, h4, ?_⟩
  · simp only [fit, if_true, hm, Option.bind_eq_bind, Option.bind_some, e]
  · exact (h5 _ hmem).trans (le_of_eq (td_perm d n (hc _ hmem)))

/-- **C73**, given medoids, with or without ties. -/
theorem C73_never_worse_than_given (vmax : K) (eq : K → K → Bool) (d : Nat → Nat → K) (n : Nat)
    (ms : List Nat) (hd : IsTable d n) (hk : 2 ≤ ms.length) (hms : ∀ m ∈ ms, m < n)
    (hv : ∀ i o, i < n → o < n → d i o < vmax) (o : KMeans.Options) (k : Nat)
    (outcome : Nat → Nat → Nat) :
    ∃ r, fit vmax eq d n k o ms outcome = some r ∧ r.length = ms.length ∧ (∀ m ∈ r, m < n) ∧
      td d n r ≤ td d n ms := by
  have hne : ms ≠ [] := by rintro rfl; simp at hk
  have hcand : ∀ drawn, KMeans.candidates List.isEmpty o ms drawn = [ms] := by
    intro drawn
    simp [KMeans.candidates, hne]
  obtain ⟨r, e, h2, h4, h5⟩ := fit_candidates_any vmax eq d n ms.length hd hk hv ms o
    (fun i => ([] : List (List Nat)).getD i [])
    (fun c h => by rw [hcand, List.mem_singleton] at h; subst h; exact ⟨rfl, hms⟩)
    (by rw [hcand]; simp)
  refine ⟨r, ?_, h2, h4, h5 ms (by rw [hcand]; simp)⟩
  simp only [fit, if_neg hne, List.range_zero, List.mapM_nil, Option.pure_def, Option.bind_eq_bind,
    Option.bind_some, e]

/-- **C73**, random start (partial: no ties among the distances of a sample to the first `k` samples).
Whatever the outcomes of the generator: `fit` returns `k` distinct sample indices; their total deviation
is at most that of the first `k` samples, which are the start of every candidate; and if `max_iter` is
large enough (the bound depends on the data only), no exchange of a medoid with a sample from `k` on
lowers it. -/
theorem C73_fit_partial (vmax : K) (eq : K → K → Bool) (d : Nat → Nat → K) (n k : Nat)
    (hd : IsTable d n) (hk : 2 ≤ k) (hkn : k ≤ n) (hv : ∀ i o, i < n → o < n → d i o < vmax)
    (ht : ∀ o, o < n → NoTies eq (dists d (List.range k) o)) :
    ∃ N, ∀ (o : KMeans.Options) (outcome : Nat → Nat → Nat), 1 ≤ o.nInit →
      (∀ i, Random.ValidOutcome k (outcome i)) →
      ∃ r, fit vmax eq d n k o [] outcome = some r ∧ r.length = k ∧ r.Nodup ∧ (∀ m ∈ r, m < n) ∧
        td d n r ≤ td d n (List.range k) ∧ (N ≤ o.maxIter → LocalOptimum d n k r) := by
  obtain ⟨N, h⟩ := fit_candidates vmax eq d n k hd hk hv [] (List.range k).permutations (by
    intro c hc
    have hp := List.mem_permutations.1 hc
    refine ⟨by simpa using hp.length_eq, hp.nodup_iff.2 List.nodup_range, fun m hm => ?_, fun o ho =>
      noTies_perm (ht o ho) (hp.map _)⟩
    have := List.mem_range.1 (hp.subset hm)
    omega)
  refine ⟨N, fun o outcome h1 hval => ?_⟩
  choose g eg hg using fun i => fromInterval_zero (outcome i) hkn (hval i)
  have hm : (List.range o.nInit).mapM (fun i => Random.fromInterval (outcome i) k 0 n) =
      some ((List.range o.nInit).map g) := KMeans.mapM_some _ _ _ (fun i _ => eg i)
  have hc : ∀ c ∈ KMeans.candidates List.isEmpty o [] (fun i => ((List.range o.nInit).map g).getD i []),
      c.Perm (List.range k) := by
    intro c hc
    simp only [KMeans.candidates, List.isEmpty_nil, if_true, List.mem_map, List.mem_range] at hc
    obtain ⟨i, hi, rfl⟩ := hc
    simpa [List.getD_eq_getElem?_getD, hi] using hg i
  have hmem : ((List.range o.nInit).map g).getD 0 [] ∈
      KMeans.candidates List.isEmpty o [] (fun i => ((List.range o.nInit).map g).getD i []) := by
    simp only [KMeans.candidates, List.isEmpty_nil, if_true]
    exact List.mem_map.2 ⟨0, List.mem_range.2 h1, rfl⟩
  obtain ⟨r, e, h2, h3, h4, h5, h6⟩ := h o (fun i => ((List.range o.nInit).map g).getD i [])
    (fun c h => List.mem_permutations.2 (hc c h)) (List.ne_nil_of_mem hmem)
  refine ⟨r, ?_, h2, h3, h4, ?_, h6⟩
  · simp only [fit, if_true, hm, Option.bind_eq_bind, Option.bind_some, e]
  · exact (h5 _ hmem).trans (le_of_eq (td_perm d n (hc _ hmem)))

/-- **C73**, given medoids (partial: no ties at the start): one run from these medoids, the number of
candidates and the generator are ignored. -/
theorem C73_given_partial (vmax : K) (eq : K → K → Bool) (d : Nat → Nat → K) (n : Nat) (ms : List Nat)
    (hd : IsTable d n) (hk : 2 ≤ ms.length) (hms : ∀ m ∈ ms, m < n) (hnd : ms.Nodup)
    (hv : ∀ i o, i < n → o < n → d i o < vmax) (ht : ∀ o, o < n → NoTies eq (dists d ms o)) :
    ∃ N, ∀ (o : KMeans.Options) (k : Nat) (outcome : Nat → Nat → Nat),
      ∃ r, fit vmax eq d n k o ms outcome = some r ∧ r.length = ms.length ∧ r.Nodup ∧ (∀ m ∈ r, m < n) ∧
        td d n r ≤ td d n ms ∧ (N ≤ o.maxIter → LocalOptimum d n ms.length r) := by
  have hne : ms ≠ [] := by rintro rfl; simp at hk
  obtain ⟨N, h⟩ := fit_candidates vmax eq d n ms.length hd hk hv ms [ms] (by
    intro c hc
    rw [List.mem_singleton] at hc
    subst hc
    exact ⟨rfl, hnd, hms, ht⟩)
  refine ⟨N, fun o k outcome => ?_⟩
  have hcand : ∀ drawn, KMeans.candidates List.isEmpty o ms drawn = [ms] := by
    intro drawn
    simp [KMeans.candidates, hne]
  obtain ⟨r, e, h2, h3, h4, h5, h6⟩ := h o (fun i => ([] : List (List Nat)).getD i [])
    (fun c h => by rw [hcand] at h; exact h) (by rw [hcand]; simp)
  refine ⟨r, ?_, h2, h3, h4, h5 ms (by rw [hcand]; simp), h6⟩
  simp only [fit, if_neg hne, List.range_zero, List.mapM_nil, Option.pure_def, Option.bind_eq_bind,
    Option.bind_some, e]

/-- **C73**: every candidate starts from the first `k` samples, in some order, whatever the generator
does; the samples after them are never drawn. -/
theorem C73_same_start (n k : Nat) (hkn : k ≤ n) (outcome : Nat → Nat) (hv : Random.ValidOutcome k outcome) :
    ∃ r, Random.fromInterval outcome k 0 n = some r ∧ r.Perm (List.range k) :=
  fromInterval_zero outcome hkn hv

/-- **C73**: a single cluster is never fitted, the constructor of FasterPAM throws. -/
theorem C73_single_cluster (vmax : K) (eq : K → K → Bool) (d : Nat → Nat → K) (n : Nat)
    (o : KMeans.Options) (outcome : Nat → Nat → Nat) (h1 : 1 ≤ o.nInit) (hn : 1 ≤ n)
    (hval : ∀ i, Random.ValidOutcome 1 (outcome i)) : fit vmax eq d n 1 o [] outcome = none := by
  choose g eg hg using fun i => fromInterval_zero (outcome i) hn (hval i)
  have hm : (List.range o.nInit).mapM (fun i => Random.fromInterval (outcome i) 1 0 n) =
      some ((List.range o.nInit).map g) := KMeans.mapM_some _ _ _ (fun i _ => eg i)
  simp only [fit, if_true, hm, Option.bind_eq_bind, Option.bind_some]
  obtain ⟨k, hk⟩ : ∃ k, o.nInit = k + 1 := ⟨o.nInit - 1, by omega⟩
  have hg0 : g 0 = [0] := by
    have := hg 0
    rw [show List.range 1 = [0] from rfl, List.perm_singleton] at this
    exact this
  have e : pamInit vmax eq d n [0] = none := by
    simp [pamInit, nthIndices, nearestIndices]
  simp only [KMeans.fit, hk, List.isEmpty_nil, if_true, List.range_succ_eq_map, List.map_cons,
    List.mapM_cons, List.getD_cons_zero, hg0, e, Option.bind_eq_bind, Option.bind_none]

end

/-- **C73**: `medoids_to_centroids` returns the samples of the medoids, in the order of the medoids. -/
theorem C73_centroids {V : Type} (rows : List V) (ms : List Nat) :
    (∀ cs, medoidsToCentroids rows ms = some cs ↔ ms.map (fun m => rows[m]?) = cs.map some) ∧
    (medoidsToCentroids rows ms = none ↔ ∃ m ∈ ms, rows.length ≤ m) := by
  have key : ∀ ms : List Nat, (∀ cs, medoidsToCentroids rows ms = some cs ↔
      ms.map (fun m => rows[m]?) = cs.map some) ∧
      (medoidsToCentroids rows ms = none ↔ ∃ m ∈ ms, rows.length ≤ m) := by
    intro ms
    induction ms with
    | nil => simp [medoidsToCentroids]
    | cons m ms ih =>
      obtain ⟨ih1, ih2⟩ := ih
      have e : medoidsToCentroids rows (m :: ms) =
          (rows[m]?).bind fun v => (medoidsToCentroids rows ms).map (v :: ·) := by
        unfold medoidsToCentroids
        rw [List.mapM_cons]
        cases rows[m]? with
        | none => rfl
        | some v => cases List.mapM (fun m => rows[m]?) ms <;> rfl
      rw [e]
      constructor
      · intro cs
        cases h : rows[m]? with
        | none => cases cs <;> simp [h]
        | some v =>
          cases cs with
          | nil => simp
          | cons c cs =>
            simp only [Option.bind_some, Option.map_eq_some_iff, List.cons.injEq, List.map_cons, h,
              Option.some.injEq]
            constructor
            · rintro ⟨a, h1, h2, h3⟩
              subst h3
              exact ⟨h2, (ih1 a).1 h1⟩
            · rintro ⟨h2, h3⟩
              exact ⟨cs, (ih1 cs).2 h3, h2, rfl⟩
      · cases h : rows[m]? with
        | none =>
          have := List.getElem?_eq_none_iff.1 h
          simp [this]
        | some v =>
          have := (List.getElem?_eq_some_iff.1 h).1
          simp [ih2, Nat.not_le.2 this]
  exact key ms

/-! ### examples -/

/-- The six points of `example_table` with their first two as start. -/
theorem example_first_two : ∀ o, o < 6 → NoTies eqZ (dists (line [0, 1, 5, 13, 20, 22]) (List.range 2) o) := by
  intro o ho i j x y hij hx hy
  have hi := lt_of_some hx
  have hj := lt_of_some hy
  have e2 : List.range 2 = [0, 1] := rfl
  simp only [e2, dists, List.map_cons, List.map_nil, List.length_cons, List.length_nil] at hi hj hx hy
  have hne : ∀ o < 6, line [0, 1, 5, 13, 20, 22] 0 o ≠ line [0, 1, 5, 13, 20, 22] 1 o := by
    decide +kernel
  have := hne o ho
  rcases (by omega : i = 0 ∨ i = 1) with rfl | rfl <;>
  rcases (by omega : j = 0 ∨ j = 1) with rfl | rfl <;>
  simp only [List.getElem?_cons_zero, List.getElem?_cons_succ, Option.some.injEq] at hx hy <;>
  first
    | exact absurd rfl hij
    | (subst hx hy
       refine ⟨by first | exact this | exact this.symm, ?_⟩
       simp only [eqZ, decide_eq_false_iff_not]
       first | exact this | exact this.symm)

/-- Two medoids of six points, for two orders of the first two samples.  The second result is not the
best exchange away: sample 1 in place of sample 0 lowers the total deviation from 15 to 14, but the
first two samples are never tried. -/
example : fit 1000 eqZ (line [0, 1, 5, 13, 20, 22]) 6 2 { nInit := 3 } [] (fun _ i => i) = some [4, 1] ∧
    fit 1000 eqZ (line [0, 1, 5, 13, 20, 22]) 6 2 { nInit := 3 } [] (fun _ _ => 1) = some [4, 0] ∧
    td (line [0, 1, 5, 13, 20, 22]) 6 [0, 1] = 56 ∧ td (line [0, 1, 5, 13, 20, 22]) 6 [4, 0] = 15 ∧
    td (line [0, 1, 5, 13, 20, 22]) 6 [4, 1] = 14 := by
  decide +kernel

/-- The hypotheses of `C73_fit_partial` hold for this example. -/
example : ∃ N, ∀ (o : KMeans.Options) (outcome : Nat → Nat → Nat), 1 ≤ o.nInit →
    (∀ i, Random.ValidOutcome 2 (outcome i)) →
    ∃ r, fit 1000 eqZ (line [0, 1, 5, 13, 20, 22]) 6 2 o [] outcome = some r ∧ r.length = 2 ∧ r.Nodup ∧
      (∀ m ∈ r, m < 6) ∧ td (line [0, 1, 5, 13, 20, 22]) 6 r ≤ 56 ∧
      (N ≤ o.maxIter → LocalOptimum (line [0, 1, 5, 13, 20, 22]) 6 2 r) := by
  have h := C73_fit_partial 1000 eqZ (line [0, 1, 5, 13, 20, 22]) 6 2 example_table.1 (by decide) (by decide)
    (fun i o hi ho => example_table.2.2 i hi o ho) example_first_two
  have e : td (line [0, 1, 5, 13, 20, 22]) 6 (List.range 2) = 56 := by decide +kernel
  rw [e] at h
  exact h

/-- Given medoids: sample 0 and sample 3. -/
example : fit 1000 eqZ (line [0, 1, 5, 13, 20, 22]) 6 2 {} [0, 3] (fun _ _ => 0) = some [1, 4] ∧
    medoidsToCentroids [0, 1, 5, 13, 20, 22] [1, 4] = some [1, 20] ∧
    medoidsToCentroids [0, 1, 5, 13, 20, 22] [1, 6] = none := by
  decide +kernel

end Verif.KMedoids
