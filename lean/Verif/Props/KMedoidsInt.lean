import Verif.Model.KMedoidsInt
import Verif.Props.KMedoidsFitRounding
import Verif.Props.MachineInt

/-
Property C132: FasterPAM and `KMedoids::fit` on integral data, in the arithmetic of the data type.
-/

namespace Verif.KMedoids

open Spec Verif.MachineInt

/-! ### Signed types -/

theorem noTies_eqInt {l : List ℤ} (h : l.Nodup) : NoTies eqInt l := by
  intro i j x y hij hx hy
  obtain ⟨hi, rfl⟩ := List.getElem?_eq_some_iff.1 hx
  obtain ⟨hj, rfl⟩ := List.getElem?_eq_some_iff.1 hy
  have : l[i] ≠ l[j] := fun e => hij ((h.getElem_inj_iff).1 e)
  exact ⟨this, by simp [eqInt, this]⟩

theorem exact_stores {t : IntType} {fl : ℤ → ℤ} (hs : t.signed = true) (h : Stores t fl) {N : Nat}
    (hN : (N : ℤ) ≤ t.max) : Exact fl N := by
  rintro x ⟨z, rfl, hz⟩
  have h1 := abs_le.1 hz
  have h2 := min_signed hs
  exact h.keep _ (by omega) (by omega)

theorem max_pos {t : IntType} (hb : 2 ≤ t.bits) : 0 < t.max := by
  have h1 : (2 : ℤ) ^ 1 ≤ 2 ^ (t.bits - 1) := pow_le_pow_right₀ (by norm_num) (by omega)
  have h2 : (2 : ℤ) ^ 1 ≤ 2 ^ t.bits := pow_le_pow_right₀ (by norm_num) (by omega)
  unfold IntType.max
  split <;> omega

/-- The distances are below the greatest value of the type. -/
theorem lt_max {t : IntType} (hb : 2 ≤ t.bits) {n D : Nat} (hD : (4 * n * D : ℕ) ≤ t.max) (hn : 0 < n) {z : ℤ}
    (hz : z ≤ D) : z < t.max := by
  have hp := max_pos hb
  rcases Nat.eq_zero_or_pos D with rfl | hD0
  · simp at hz; omega
  · have : D < 4 * n * D := by nlinarith
    omega

/-- **C132**, signed types, random start.  Let the distances be at most `D` and `4 n D` be within the type, and
let every sample have different distances to the first `k` samples.  Whatever an overflow would give, the
outcomes of the generator and the options: `fit` returns `k` distinct samples whose total deviation is at most
that of the first `k` samples, and if `max_iter` is large enough no exchange with a sample from `k` on lowers
it. -/
theorem C132_signed (t : IntType) (hs : t.signed = true) (hb : 2 ≤ t.bits) (d : Nat → Nat → ℤ) (n k D : Nat)
    (hd : ∀ i j, i < n → j < n → 0 ≤ d i j ∧ d i j ≤ D) (h0 : ∀ i, i < n → d i i = 0)
    (hD : (4 * n * D : ℕ) ≤ t.max) (hk : 2 ≤ k) (hkn : k ≤ n)
    (ht : ∀ j, j < n → ((List.range k).map (d · j)).Nodup) :
    ∃ N, ∀ (fl : ℤ → ℤ) (o : KMeans.Options) (outcome : Nat → Nat → Nat), Stores t fl → 1 ≤ o.nInit →
      (∀ i, Random.ValidOutcome k (outcome i)) →
      ∃ r, fitInt t fl d n k o [] outcome = some r ∧ r.length = k ∧ r.Nodup ∧ (∀ m ∈ r, m < n) ∧
        td d n r ≤ td d n (List.range k) ∧ (N ≤ o.maxIter → LocalOptimum d n k r) := by
  have hv : ∀ i o, i < n → o < n → d i o < t.max := fun i o hi ho =>
    lt_max hb hD (by omega) (hd i o hi ho).2
  obtain ⟨N, h⟩ := C73_fit_partial t.max eqInt d n k ⟨fun i o hi ho => (hd i o hi ho).1, h0⟩ hk hkn hv
    (fun o ho => noTies_eqInt (ht o ho))
  refine ⟨N, fun fl o outcome hfl h1 hval => ?_⟩
  unfold fitInt
  rw [fit_exact (exact_stores hs hfl hD) t.max eqInt d n k D (fun i j hi hj => ?_) h0 le_rfl hv [] o outcome
    (Or.inl ⟨rfl, hk, hkn, fun o ho => noTies_eqInt (ht o ho), hval⟩)]
  · exact h o outcome h1 hval
  · have := hd i j hi hj
    exact ⟨(d i j).toNat, by simp [this.1], by omega⟩

/-- **C132**, signed types, given medoids. -/
theorem C132_signed_given (t : IntType) (hs : t.signed = true) (hb : 2 ≤ t.bits) (d : Nat → Nat → ℤ) (n D : Nat)
    (ms : List Nat) (hd : ∀ i j, i < n → j < n → 0 ≤ d i j ∧ d i j ≤ D) (h0 : ∀ i, i < n → d i i = 0)
    (hD : (4 * n * D : ℕ) ≤ t.max) (hk : 2 ≤ ms.length) (hms : ∀ m ∈ ms, m < n) (hnd : ms.Nodup)
    (ht : ∀ j, j < n → (ms.map (d · j)).Nodup) :
    ∃ N, ∀ (fl : ℤ → ℤ) (o : KMeans.Options) (k : Nat) (outcome : Nat → Nat → Nat), Stores t fl →
      ∃ r, fitInt t fl d n k o ms outcome = some r ∧ r.length = ms.length ∧ r.Nodup ∧ (∀ m ∈ r, m < n) ∧
        td d n r ≤ td d n ms ∧ (N ≤ o.maxIter → LocalOptimum d n ms.length r) := by
  have hn : 0 < n := by
    cases ms with
    | nil => simp at hk
    | cons m _ => have := hms m (by simp); omega
  have hv : ∀ i o, i < n → o < n → d i o < t.max := fun i o hi ho => lt_max hb hD hn (hd i o hi ho).2
  obtain ⟨N, h⟩ := C73_given_partial t.max eqInt d n ms ⟨fun i o hi ho => (hd i o hi ho).1, h0⟩ hk hms hnd hv
    (fun o ho => noTies_eqInt (ht o ho))
  refine ⟨N, fun fl o k outcome hfl => ?_⟩
  unfold fitInt
  rw [fit_exact (exact_stores hs hfl hD) t.max eqInt d n k D (fun i j hi hj => ?_) h0 le_rfl hv ms o outcome
    (Or.inr ⟨hk, hms, fun o ho => noTies_eqInt (ht o ho)⟩)]
  · exact h o k outcome
  · have := hd i j hi hj
    exact ⟨(d i j).toNat, by simp [this.1], by omega⟩

/-! ### Samples -/

theorem dists_congr {d e : Nat → Nat → ℤ} {n : Nat} (h : ∀ i j, i < n → j < n → d i j = e i j) {ms : List Nat}
    (hms : ∀ m ∈ ms, m < n) {o : Nat} (ho : o < n) : dists d ms o = dists e ms o :=
  List.map_congr_left fun m hm => h m o (hms m hm) ho

theorem td_congr {d e : Nat → Nat → ℤ} {n : Nat} (h : ∀ i j, i < n → j < n → d i j = e i j) {ms : List Nat}
    (hms : ∀ m ∈ ms, m < n) : td d n ms = td e n ms := by
  unfold td
  congr 1
  refine List.map_congr_left fun o ho => ?_
  rw [dists_congr h hms (List.mem_range.1 ho)]

theorem intDistance_eq {t : IntType} (hb : 1 ≤ t.bits) (ub : Nat → Nat → ℤ) (x : Nat → List ℤ) {i j : Nat} {z : ℤ}
    (hl : (x i).length = (x j).length) (hz : Distances.manhattan (x i) (x j) = some z) (h : z ≤ t.max) :
    intDistance t ub x i j = z ∧ 0 ≤ z := by
  obtain ⟨e, h0⟩ := distance_eq hz hl.le (h.trans (max_le_promoted t))
  exact ⟨by rw [intDistance, e, Option.getD_some, convert_of_le hb h0 h], h0⟩

/-- **C132**, signed types, from the samples.  `n` samples with equally many features of a signed type, Manhattan
distances of at most `D`, `4 n D` within the type: `fit` computes all distances and all sums without overflow
and returns `k` distinct samples whose total Manhattan distance is at most that of the first `k` samples. -/
theorem C132_samples (t : IntType) (hs : t.signed = true) (hb : 2 ≤ t.bits) (ub : Nat → Nat → ℤ)
    (x : Nat → List ℤ) (n k nf D : Nat) (dist : Nat → Nat → ℤ)
    (hx : ∀ i, i < n → (x i).length = nf)
    (hdist : ∀ i j, i < n → j < n → Distances.manhattan (x i) (x j) = some (dist i j) ∧ dist i j ≤ D)
    (hD : (4 * n * D : ℕ) ≤ t.max) (hk : 2 ≤ k) (hkn : k ≤ n)
    (ht : ∀ j, j < n → ((List.range k).map (dist · j)).Nodup) :
    ∃ N, ∀ (fl : ℤ → ℤ) (o : KMeans.Options) (outcome : Nat → Nat → Nat), Stores t fl → 1 ≤ o.nInit →
      (∀ i, Random.ValidOutcome k (outcome i)) →
      ∃ r, fitInt t fl (intDistance t ub x) n k o [] outcome = some r ∧ r.length = k ∧ r.Nodup ∧
        (∀ m ∈ r, m < n) ∧ td dist n r ≤ td dist n (List.range k) ∧
        (N ≤ o.maxIter → LocalOptimum dist n k r) := by
  have hv : ∀ i j, i < n → j < n → dist i j < t.max := fun i j hi hj =>
    lt_max hb hD (by omega) (hdist i j hi hj).2
  have he : ∀ i j, i < n → j < n → intDistance t ub x i j = dist i j ∧ 0 ≤ dist i j := fun i j hi hj =>
    intDistance_eq (by omega) ub x ((hx i hi).trans (hx j hj).symm) (hdist i j hi hj).1 (hv i j hi hj).le
  have h0 : ∀ i, i < n → dist i i = 0 := by
    intro i hi
    have := (hdist i i hi hi).1
    rw [Distances.manhattan_eq le_rfl, Option.some.injEq, List.zipWith_self] at this
    rw [← this]
    simp
  have hc : ∀ i j, i < n → j < n → intDistance t ub x i j = dist i j := fun i j hi hj => (he i j hi hj).1
  have hr : ∀ m ∈ List.range k, m < n := fun m hm => by have := List.mem_range.1 hm; omega
  obtain ⟨N, h⟩ := C132_signed t hs hb (intDistance t ub x) n k D
    (fun i j hi hj => by rw [hc i j hi hj]; exact ⟨(he i j hi hj).2, (hdist i j hi hj).2⟩)
    (fun i hi => by rw [hc i i hi hi, h0 i hi]) hD hk hkn
    (fun j hj => by
      have := dists_congr hc hr hj
      unfold dists at this
      rw [this]
      exact ht j hj)
  refine ⟨N, fun fl o outcome hfl h1 hval => ?_⟩
  obtain ⟨r, e, h2, h3, h4, h5, h6⟩ := h fl o outcome hfl h1 hval
  rw [td_congr hc h4, td_congr hc hr] at h5
  refine ⟨r, e, h2, h3, h4, h5, fun hN c hkc hcn j hj => ?_⟩
  have := h6 hN c hkc hcn j hj
  rwa [td_congr hc h4, td_congr hc] at this
  intro m hm
  rcases List.mem_or_eq_of_mem_set hm with h' | rfl
  · exact h4 m h'
  · exact hcn

/-! ### Unsigned types -/

theorem stores_nonneg {t : IntType} {fl : ℤ → ℤ} (hu : t.signed = false) (h : Stores t fl) (z : ℤ) : 0 ≤ fl z := by
  rw [h.wrap hu]
  exact Int.emod_nonneg _ (by positivity)

theorem unsigned_try {t : IntType} (hu : t.signed = false) {fl : ℤ → ℤ} (hfl : Stores t fl)
    {d : Nat → Nat → ℤ} {n : Nat} {s s' : PState ℤ} {c : Nat} (h : tryCandidateR fl d n s c = some s') :
    s' = s := by
  unfold tryCandidateR at h
  cases er : s.buf[c]? with
  | none => rw [er] at h; cases h
  | some r =>
    rw [er] at h
    simp only [Option.bind_eq_bind, Option.bind_some] at h
    by_cases hc : c = r.i1
    · rw [if_pos hc] at h; exact (Option.some.inj h).symm
    · rw [if_neg hc] at h
      cases ef : findBestSwapR fl d n s c with
      | none => rw [ef] at h; cases h
      | some q =>
        obtain ⟨delta, b⟩ := q
        have hq : 0 ≤ delta := by
          unfold findBestSwapR at ef
          simp only [Option.bind_eq_bind, Option.bind_eq_some_iff, Option.some.injEq, Prod.mk.injEq] at ef
          obtain ⟨⟨mi, xc⟩, _, ⟨i, v⟩, _, e, _⟩ := ef
          rw [← e]
          exact stores_nonneg hu hfl _
        rw [ef] at h
        simp only [Option.bind_some] at h
        rw [if_neg (by omega)] at h
        exact (Option.some.inj h).symm

/-- **C132**, unsigned types: a step of FasterPAM changes nothing, whatever the state and the distances.  The
change of the total deviation is a value of the unsigned type, and is compared with 0. -/
theorem C132_unsigned_step (t : IntType) (hu : t.signed = false) (fl : ℤ → ℤ) (hfl : Stores t fl)
    (d : Nat → Nat → ℤ) (n : Nat) (s s' : PState ℤ) (h : pamStepR fl d n s = some s') : s' = s := by
  have loop : ∀ (cs : List Nat) (s s' : PState ℤ), stepLoopR fl d n cs s = some s' → s' = s := by
    intro cs
    induction cs with
    | nil => intro s s' h; exact (Option.some.inj h).symm
    | cons c cs ih =>
      intro s s' h
      rw [stepLoopR, Option.bind_eq_bind, Option.bind_eq_some_iff] at h
      obtain ⟨s1, e1, e2⟩ := h
      rw [ih s1 s' e2, unsigned_try hu hfl e1]
  exact loop _ s s' h

theorem addAtR_length (fl : ℤ → ℤ) (l : List ℤ) {i : Nat} (v : ℤ) (h : i < l.length) :
    ∃ l', addAtR fl l i v = some l' ∧ l'.length = l.length := by
  unfold addAtR
  rw [List.getElem?_eq_getElem h]
  exact ⟨_, rfl, by simp⟩

theorem removalLoopR_length (fl : ℤ → ℤ) (rs : List (Rec ℤ)) : ∀ acc : List ℤ, (∀ r ∈ rs, r.i1 < acc.length) →
    ∃ acc', removalLoopR fl rs acc = some acc' ∧ acc'.length = acc.length := by
  induction rs with
  | nil => intro acc _; exact ⟨acc, rfl, rfl⟩
  | cons r rs ih =>
    intro acc h
    obtain ⟨a1, e1, h1⟩ := addAtR_length fl acc (fl (r.d2 - r.d1)) (h r (by simp))
    obtain ⟨a2, e2, h2⟩ := ih a1 (fun q hq => by rw [h1]; exact h q (by simp [hq]))
    exact ⟨a2, by rw [removalLoopR, e1]; exact e2, by omega⟩

theorem swapGainLoopR_length (fl : ℤ → ℤ) (d : Nat → Nat → ℤ) (buf : List (Rec ℤ)) (c : Nat) (os : List Nat) :
    ∀ (mi : List ℤ) (xc : ℤ), (∀ o ∈ os, ∃ r, buf[o]? = some r ∧ r.i1 < mi.length) →
      ∃ mi' xc', swapGainLoopR fl d buf c os mi xc = some (mi', xc') ∧ mi'.length = mi.length := by
  induction os with
  | nil => intro mi xc _; exact ⟨mi, xc, rfl, rfl⟩
  | cons o os ih =>
    intro mi xc h
    obtain ⟨r, er, hr⟩ := h o (by simp)
    have h' : ∀ q ∈ os, ∃ r, buf[q]? = some r ∧ r.i1 < mi.length := fun q hq => h q (by simp [hq])
    rw [swapGainLoopR, er]
    simp only [Option.bind_eq_bind, Option.bind_some]
    split
    · obtain ⟨a1, e1, h1⟩ := addAtR_length fl mi (fl (r.d1 - r.d2)) hr
      rw [e1]
      simp only [Option.bind_some]
      obtain ⟨m2, x2, e2, h2⟩ := ih a1 (fl (xc + fl (d c o - r.d1))) (by rw [h1]; exact h')
      exact ⟨m2, x2, e2, by omega⟩
    · split
      · obtain ⟨a1, e1, h1⟩ := addAtR_length fl mi (fl (d c o - r.d2)) hr
        rw [e1]
        simp only [Option.bind_some]
        obtain ⟨m2, x2, e2, h2⟩ := ih a1 xc (by rw [h1]; exact h')
        exact ⟨m2, x2, e2, by omega⟩
      · exact ih mi xc h'

/-- The constructor and a step from its state have no access out of bounds. -/
theorem unsigned_run {t : IntType} (hu : t.signed = false) {fl : ℤ → ℤ} (hfl : Stores t fl) {d : Nat → Nat → ℤ}
    {n : Nat} {ms : List Nat} (hk : 2 ≤ ms.length) (hv : ∀ o, o < n → ∀ m ∈ ms, d m o < t.max)
    (ht : ∀ o, o < n → (ms.map (d · o)).Nodup) :
    ∃ s, pamInitR fl t.max eqInt d n ms = some s ∧ s.medoids = ms ∧ pamStepR fl d n s = some s := by
  obtain ⟨s, e, em, h, -⟩ := pamInit_spec t.max eqInt hk hv (fun o ho => noTies_eqInt (ht o ho))
  have hrec := fun o ho => recAt h o ho
  have hlen := h.len
  rw [em] at hrec
  unfold pamInit at e
  simp only [Option.bind_eq_bind, Option.bind_eq_some_iff] at e
  obtain ⟨i1s, e1, i2s, e2, d1s, e3, d2s, e4, buf, e5, rem, e6, e7⟩ := e
  rw [Option.some.injEq] at e7
  subst e7
  dsimp only at hrec hlen
  obtain ⟨rem', e8, h8⟩ := removalLoopR_length fl buf (List.replicate ms.length 0) (by
    intro r hr
    obtain ⟨o, ho, rfl⟩ := List.mem_iff_getElem.1 hr
    obtain ⟨r', er, -, hi, -⟩ := hrec o (by omega)
    rw [List.getElem?_eq_getElem ho, Option.some.injEq] at er
    rw [er, List.length_replicate]
    exact hi)
  rw [List.length_replicate] at h8
  refine ⟨⟨ms, buf, rem', d1s.foldl (fun s x => fl (s + x)) 0⟩, ?_, rfl, ?_⟩
  · unfold pamInitR
    simp only [Option.bind_eq_bind, Option.bind_eq_some_iff]
    exact ⟨i1s, e1, i2s, e2, d1s, e3, d2s, e4, buf, e5, rem', e8, rfl⟩
  · generalize d1s.foldl (fun s x => fl (s + x)) 0 = loss
    have one : ∀ c, c < n → ∃ s', tryCandidateR fl d n ⟨ms, buf, rem', loss⟩ c = some s' := by
      intro c hc
      obtain ⟨r, er, -, -, -⟩ := hrec c hc
      simp only [tryCandidateR, er, Option.bind_eq_bind, Option.bind_some]
      by_cases hcr : c = r.i1
      · rw [if_pos hcr]; exact ⟨_, rfl⟩
      · rw [if_neg hcr]
        obtain ⟨mi, xc, e9, h9⟩ := swapGainLoopR_length fl d buf c (List.range n) rem' 0 (by
          intro o ho
          obtain ⟨r, er, -, hi, -⟩ := hrec o (List.mem_range.1 ho)
          exact ⟨r, er, by omega⟩)
        obtain ⟨i, v, e10, -⟩ := Stats.minPair_spec mi (by rintro rfl; simp at h9; omega)
        simp only [findBestSwapR, e9, e10, Option.bind_eq_bind, Option.bind_some]
        have := stores_nonneg hu hfl (xc + v)
        rw [if_neg (by omega)]
        exact ⟨_, rfl⟩
    have loop : ∀ cs : List Nat, (∀ c ∈ cs, c < n) →
        ∃ s', stepLoopR fl d n cs ⟨ms, buf, rem', loss⟩ = some s' := by
      intro cs
      induction cs with
      | nil => intro _; exact ⟨_, rfl⟩
      | cons c cs ih =>
        intro hc
        obtain ⟨s1, e9⟩ := one c (hc c (by simp))
        have := unsigned_try hu hfl e9
        subst this
        rw [stepLoopR, e9]
        exact ih fun q hq => hc q (by simp [hq])
    obtain ⟨s', es⟩ := loop (List.range n) (fun c hc => List.mem_range.1 hc)
    have := C132_unsigned_step t hu fl hfl d n _ s' es
    rw [pamStepR, es, this]

theorem iterate_const {S C : Type} (step : S → Option S) (cent : S → C) (same : C → C → Bool) (o : KMeans.Options)
    (s : S) (h : step s = some s) (iter : Nat) : ∀ (prev : C) (pat : Nat),
    KMeans.iterate step cent same o iter s (cent s) prev pat = some (s, cent s) := by
  induction iter with
  | zero => intros; rfl
  | succ iter ih =>
    intro prev pat
    simp only [KMeans.iterate, h, Option.bind_eq_bind, Option.bind_some, ih, ite_self]

/-- **C132**, unsigned types, given medoids: `fit` returns the medoids it was given. -/
theorem C132_unsigned_given (t : IntType) (hu : t.signed = false) (fl : ℤ → ℤ) (hfl : Stores t fl)
    (d : Nat → Nat → ℤ) (n : Nat) (ms : List Nat) (hk : 2 ≤ ms.length)
    (hv : ∀ j, j < n → ∀ m ∈ ms, d m j < t.max) (ht : ∀ j, j < n → (ms.map (d · j)).Nodup)
    (o : KMeans.Options) (k : Nat) (outcome : Nat → Nat → Nat) :
    fitInt t fl d n k o ms outcome = some ms := by
  have hne : ms ≠ [] := by rintro rfl; simp at hk
  obtain ⟨s, e0, em, es⟩ := unsigned_run hu hfl hk hv ht
  have e1 := iterate_const (pamStepR fl d n) (fun s => s.medoids) (fun a b => decide (a = b)) o s es o.maxIter [] 0
  rw [em] at e1
  have hie : ms.isEmpty = false := by simpa using hne
  have ea : ∀ x : ℤ, Stats.argmin none [x] = some 0 := fun x => rfl
  simp only [fitInt, fitR, if_neg hne, List.range_zero, List.mapM_nil, Option.pure_def, Option.bind_eq_bind,
    Option.bind_some, KMeans.fit, hie, Bool.false_eq_true, if_false, List.mapM_cons, e0, e1, List.map_cons,
    List.map_nil, ea, List.getElem?_cons_zero]

/-- **C132**, unsigned types, random start: `fit` returns the first `k` samples in some order, whatever the data,
the options and the outcomes of the generator. -/
theorem C132_unsigned (t : IntType) (hu : t.signed = false) (fl : ℤ → ℤ) (hfl : Stores t fl)
    (d : Nat → Nat → ℤ) (n k : Nat) (hk : 2 ≤ k) (hkn : k ≤ n) (hv : ∀ i j, i < n → j < n → d i j < t.max)
    (ht : ∀ j, j < n → ((List.range k).map (d · j)).Nodup) (o : KMeans.Options) (outcome : Nat → Nat → Nat)
    (h1 : 1 ≤ o.nInit) (hval : ∀ i, Random.ValidOutcome k (outcome i)) :
    ∃ r, fitInt t fl d n k o [] outcome = some r ∧ r.Perm (List.range k) := by
  choose g eg hg using fun i => fromInterval_zero (outcome i) hkn (hval i)
  have hm : (List.range o.nInit).mapM (fun i => Random.fromInterval (outcome i) k 0 n) =
      some ((List.range o.nInit).map g) := KMeans.mapM_some _ _ _ (fun i _ => eg i)
  have hc : ∀ c ∈ KMeans.candidates List.isEmpty o [] (fun i => ((List.range o.nInit).map g).getD i []),
      c.Perm (List.range k) := by
    intro c hc
    simp only [KMeans.candidates, List.isEmpty_nil, if_true, List.mem_map, List.mem_range] at hc
    obtain ⟨i, hi, rfl⟩ := hc
    simpa [List.getD_eq_getElem?_getD, hi] using hg i
  have hmem : ((List.range o.nInit).map g).getD 0 [] ∈
      KMeans.candidates List.isEmpty o [] (fun i => ((List.range o.nInit).map g).getD i []) := by
    simp only [KMeans.candidates, List.isEmpty_nil, if_true]
    exact List.mem_map.2 ⟨0, List.mem_range.2 h1, rfl⟩
  have run : ∀ c : List Nat, c.Perm (List.range k) →
      ∃ s, pamInitR fl t.max eqInt d n c = some s ∧ s.medoids = c ∧ pamStepR fl d n s = some s := by
    intro c hp
    refine unsigned_run hu hfl (by rw [hp.length_eq, List.length_range]; exact hk) (fun j hj m hm => ?_)
      (fun j hj => ((hp.map _).nodup_iff).2 (ht j hj))
    have := List.mem_range.1 (hp.subset hm)
    exact hv m j (by omega) hj
  classical
  choose s e0 em es using run
  let Q : List Nat → PState ℤ × List Nat := fun c =>
    if hc : c.Perm (List.range k) then (s c hc, c) else (⟨[], [], [], 0⟩, [])
  have hQ : ∀ c (hc : c.Perm (List.range k)), Q c = (s c hc, c) := fun c hc => dif_pos hc
  obtain ⟨i, c, hci, e, -, -⟩ := KMeans.C44_best (pamInitR fl t.max eqInt d n) (pamStepR fl d n)
    (fun s => s.medoids) (fun s => s.loss) (fun a b => decide (a = b)) List.isEmpty [] o []
    (fun i => ((List.range o.nInit).map g).getD i []) Q (fun c h => by
      have hp := hc c h
      refine ⟨s c hp, e0 c hp, ?_⟩
      have e1 := iterate_const (pamStepR fl d n) (fun s => s.medoids) (fun a b => decide (a = b)) o (s c hp)
        (es c hp) o.maxIter [] 0
      rw [em c hp] at e1
      rw [hQ c hp]
      exact e1) (List.ne_nil_of_mem hmem)
  have hp := hc c (List.mem_of_getElem? hci)
  rw [hQ c hp] at e
  exact ⟨c, by simp only [fitInt, fitR, if_true, hm, Option.bind_eq_bind, Option.bind_some, e], hp⟩

/-! ### Examples -/

/-- Distances of samples on a line. -/
def lineTable (xs : List ℤ) (i j : Nat) : ℤ := |xs.getD i 0 - xs.getD j 0|

theorem convert_stores (t : IntType) (hb : 1 ≤ t.bits) : Stores t t.convert := by
  refine ⟨fun z h0 h => ?_, fun hu z => by simp [IntType.convert, hu]⟩
  rcases lt_or_ge z 0 with hz | hz
  · cases hs : t.signed with
    | false => simp [IntType.min, hs] at h0; omega
    | true =>
      have hp : (2 : ℤ) ^ t.bits = 2 * 2 ^ (t.bits - 1) := by
        rw [← pow_succ']
        congr 1
        omega
      have hc : ((2 ^ t.bits : ℕ) : ℤ) = 2 * 2 ^ (t.bits - 1) := by push_cast; exact hp
      simp only [IntType.min, IntType.max, hs, if_true] at h0 h
      simp only [IntType.convert, hs, if_true]
      apply Int.bmod_eq_of_le <;> rw [hc] <;> omega
  · exact convert_of_le hb hz h

/-- The same five samples 0, 1, 100, 101, 102 with the first two as medoids: on `int` a medoid moves to the three
samples on the right, on `unsigned` nothing moves, and the total deviation is 300 instead of 3. -/
theorem C132_unsigned_counterexample :
    fitInt ⟨32, true⟩ (IntType.convert ⟨32, true⟩) (lineTable [0, 1, 100, 101, 102]) 5 2 {} [0, 1] (fun _ _ => 0) =
      some [3, 1] ∧
    fitInt ⟨32, false⟩ (IntType.convert ⟨32, false⟩) (lineTable [0, 1, 100, 101, 102]) 5 2 {} [0, 1]
      (fun _ _ => 0) = some [0, 1] ∧
    td (lineTable [0, 1, 100, 101, 102]) 5 [3, 1] = 3 ∧ td (lineTable [0, 1, 100, 101, 102]) 5 [0, 1] = 300 := by
  decide +kernel

/-- Without the bound on `4 n D`: the samples 0, 1, 2, 50 as 8-bit integers.  All distances are at most 50, but
the loss of removing a medoid, 145, is stored as -111: `fit` starts from 0 and 1 and returns the sample 50
twice, with a total deviation of 147 instead of 50. -/
theorem C132_overflow_counterexample :
    fitInt ⟨8, true⟩ (IntType.convert ⟨8, true⟩) (lineTable [0, 1, 2, 50]) 4 2 {} [0, 1] (fun _ _ => 0) =
      some [3, 3] ∧
    fitInt ⟨16, true⟩ (IntType.convert ⟨16, true⟩) (lineTable [0, 1, 2, 50]) 4 2 {} [0, 1] (fun _ _ => 0) =
      some [3, 1] ∧
    td (lineTable [0, 1, 2, 50]) 4 [3, 3] = 147 ∧ td (lineTable [0, 1, 2, 50]) 4 [0, 1] = 50 := by
  decide +kernel

theorem below {P : Nat → Nat → Prop} {n : Nat} (h : ∀ i, i < n → ∀ j, j < n → P i j) :
    ∀ i j, i < n → j < n → P i j := fun i j hi hj => h i hi j hj

example := C132_signed ⟨16, true⟩ rfl (by decide) (lineTable [0, 1, 3, 50]) 4 2 50 (below (by decide +kernel))
  (by decide +kernel) (by decide +kernel) (by decide) (by decide) (by decide +kernel)

example := C132_signed_given ⟨32, true⟩ rfl (by decide) (lineTable [0, 1, 100, 101, 102]) 5 102 [0, 1]
  (below (by decide +kernel)) (by decide +kernel) (by decide +kernel) (by decide) (by decide) (by decide)
  (by decide +kernel)

/-- Four samples with two features. -/
def plane : List (List ℤ) := [[0, 0], [2, 1], [-40, 7], [-42, 10]]

example := C132_samples ⟨16, true⟩ rfl (by decide) (fun _ _ => 0) (fun i => plane.getD i []) 4 2 2 53
  (fun i j => (Distances.manhattan (plane.getD i []) (plane.getD j [])).getD 0) (by decide +kernel)
  (below (by decide +kernel)) (by decide +kernel) (by decide) (by decide) (by decide +kernel)

example : fitInt ⟨16, true⟩ (IntType.convert ⟨16, true⟩)
    (intDistance ⟨16, true⟩ (fun _ _ => 0) (fun i => plane.getD i [])) 4 2 {} [0, 1] (fun _ _ => 0) = some [2, 1] := by
  decide +kernel

example := C132_unsigned ⟨64, false⟩ rfl _ (convert_stores _ (by decide)) (lineTable [0, 1, 100, 101, 102]) 5 2
  (by decide) (by decide) (below (by decide +kernel)) (by decide +kernel) {}

example := C132_unsigned_given ⟨8, false⟩ rfl _ (convert_stores _ (by decide)) (lineTable [0, 1, 100, 101, 102]) 5
  [1, 0] (by decide) (by decide +kernel) (by decide +kernel)

example := C132_unsigned_step ⟨32, false⟩ rfl _ (convert_stores _ (by decide)) (lineTable [0, 1, 100, 101, 102]) 5

end Verif.KMedoids
