import Verif.Lemmas.FasterPAM
import Verif.Lemmas.FasterPAMTies
import Verif.Spec.KMeans
import Mathlib.Data.Set.Finite.List
import Mathlib.Data.Set.Finite.Lattice
import Mathlib.Algebra.Order.Ring.Int
import Mathlib.Algebra.Order.Ring.Rat

/-
Properties C46 to C49: the exchanges of FasterPAM.
-/

namespace Verif.KMedoids

open Spec

/-- Distances of points on a line, for the examples. -/
def line (xs : List ℤ) : Nat → Nat → ℤ := fun i j => |xs.getD i 0 - xs.getD j 0|

/-- Equality, for the examples. -/
def eqZ : ℤ → ℤ → Bool := fun a b => decide (a = b)

section

variable {K : Type} [LinearOrder K] [CommRing K] [IsStrictOrderedRing K]

/-- **C46**.  Whenever the cached nearest and second nearest medoids are right (`BufOK`),
`find_best_swap` returns a position and the exact change of the total deviation when the medoid at this
position is exchanged with the candidate, and no other position gives a smaller total deviation. -/
theorem C46_swap_gain (d : Nat → Nat → K) (n : Nat) (s : PState K) (h : BufOK d n s) (c : Nat) :
    ∃ delta i, findBestSwap d n s c = some (delta, i) ∧ i < s.medoids.length ∧
      delta = td d n (s.medoids.set i c) - td d n s.medoids ∧
      ∀ j, j < s.medoids.length → td d n (s.medoids.set i c) ≤ td d n (s.medoids.set j c) := by
  obtain ⟨delta, i, e, hi, htd, hbest⟩ := findBestSwap_spec h c
  refine ⟨delta, i, e, hi, by rw [htd]; ring, fun j hj => ?_⟩
  rw [htd]
  exact hbest j hj

/-- The records of a state, spelled out. -/
theorem records {d : Nat → Nat → K} {n : Nat} {s : PState K} (h : BufOK d n s) :
    ∀ o, o < n → ∃ r : Rec K, s.buf[o]? = some r ∧ Smallest (dists d s.medoids o) [] r.i1 r.d1 ∧
      Smallest (dists d s.medoids o) [r.i1] r.i2 r.d2 := by
  intro o ho
  obtain ⟨r, e, hr, -⟩ := recAt h o ho
  exact ⟨r, e, hr.1, hr.2⟩

/-- Any number of steps. -/
theorem run_spec {d : Nat → Nat → K} {n : Nat} (hd : IsTable d n) {s : PState K}
    (hms : ∀ m ∈ s.medoids, m < n) (h : BufOK d n s) : ∀ t : Nat,
    ∃ s', KMeans.runN (pamStep d n) t s = some s' ∧ BufOK d n s' ∧ (∀ m ∈ s'.medoids, m < n) ∧
      s'.medoids.length = s.medoids.length ∧ (s.medoids.Nodup → s'.medoids.Nodup) ∧
      td d n s'.medoids ≤ td d n s.medoids := by
  intro t
  induction t with
  | zero => exact ⟨s, rfl, h, hms, rfl, id, le_refl _⟩
  | succ t ih =>
    obtain ⟨s1, e1, h1, hm1, hl1, hn1, hle1⟩ := ih
    obtain ⟨s2, e2, h2, hl2, hm2, hn2, hle2, -, -⟩ := stepLoop_spec hd (List.range n) s1
      (fun c hc => List.mem_range.1 hc) hm1 h1
    refine ⟨s2, by simp only [KMeans.runN, e1, Option.bind_some]; exact e2, h2, hm2, by omega,
      fun hn => hn2 (hn1 hn), le_trans hle2 hle1⟩

/-- **C47**.  Start from medoids without ties (every sample has pairwise different distances to the
medoids) and make any number of steps.  No access is out of bounds, for every sample the cached
positions and distances are those of a nearest and of a second nearest of the current medoids, and the
reported total deviation is the total deviation. -/
theorem C47_consistent (vmax : K) (eq : K → K → Bool) (d : Nat → Nat → K) (n : Nat) (ms : List Nat)
    (hd : IsTable d n) (hms : ∀ m ∈ ms, m < n) (hk : 2 ≤ ms.length)
    (hv : ∀ o, o < n → ∀ m ∈ ms, d m o < vmax) (ht : ∀ o, o < n → NoTies eq (dists d ms o)) (t : Nat) :
    ∃ s, (pamInit vmax eq d n ms).bind (KMeans.runN (pamStep d n) t) = some s ∧
      s.loss = td d n s.medoids ∧ s.buf.length = n ∧
      ∀ o, o < n → ∃ r : Rec K, s.buf[o]? = some r ∧ Smallest (dists d s.medoids o) [] r.i1 r.d1 ∧
        Smallest (dists d s.medoids o) [r.i1] r.i2 r.d2 := by
  obtain ⟨s0, e0, em, h0, -⟩ := pamInit_spec vmax eq hk hv ht
  obtain ⟨s, e, h, -⟩ := run_spec hd (by rw [em]; exact hms) h0 t
  exact ⟨s, by rw [e0]; exact e, h.loss, h.len, records h⟩

/-- **C47**, second form.  If there are no ties for the medoids reached either, the state reached is the
state that the constructor computes from these medoids. -/
theorem C47_from_scratch (vmax : K) (eq : K → K → Bool) (d : Nat → Nat → K) (n : Nat) (ms : List Nat)
    (hd : IsTable d n) (hms : ∀ m ∈ ms, m < n) (hk : 2 ≤ ms.length)
    (hv : ∀ i o, i < n → o < n → d i o < vmax) (ht : ∀ o, o < n → NoTies eq (dists d ms o)) (t : Nat)
    (s : PState K) (hs : (pamInit vmax eq d n ms).bind (KMeans.runN (pamStep d n) t) = some s)
    (ht' : ∀ o, o < n → NoTies eq (dists d s.medoids o)) :
    pamInit vmax eq d n s.medoids = some s := by
  obtain ⟨s0, e0, em, h0, -⟩ := pamInit_spec vmax eq hk (fun o ho m hm => hv m o (hms m hm) ho) ht
  obtain ⟨s1, e, h, hm1, -⟩ := run_spec hd (by rw [em]; exact hms) h0 t
  rw [e0, Option.bind_some, e, Option.some.injEq] at hs
  subst hs
  obtain ⟨s2, e2, em2, h2, -⟩ := pamInit_spec vmax eq h.two (fun o ho m hm => hv m o (hm1 m hm) ho) ht'
  rw [e2]
  have hb : s2.buf = s1.buf := by
    apply List.ext_getElem
    · rw [h2.len, h.len]
    · intro o a b
      have ho : o < n := by rw [h2.len] at a; exact a
      have f := h2.recs o _ (List.getElem?_eq_getElem a)
      rw [em2] at f
      exact firstTwo_unique (ht' o ho) f (h.recs o _ (List.getElem?_eq_getElem b))
  have hr : s2.removal = s1.removal := by
    have a := h2.rem
    rw [em2, hb, h.rem, Option.some.injEq] at a
    exact a.symm
  have hl : s2.loss = s1.loss := by rw [h2.loss, h.loss, em2]
  obtain ⟨a, b, c, e⟩ := s2
  dsimp only at em2 hb hr hl
  subst em2 hb hr hl
  rfl

/-- **C48** (partial: right buffers, which ties at the start destroy, see the counterexample), one exchange.  Trying a candidate either leaves the state as it is, or replaces one medoid
with the candidate, which was not a medoid, and the total deviation and the reported loss are strictly
smaller. -/
theorem C48_exchange_partial (d : Nat → Nat → K) (n : Nat) (hd : IsTable d n) (s : PState K)
    (hms : ∀ m ∈ s.medoids, m < n) (h : BufOK d n s) (c : Nat) (hc : c < n) :
    ∃ s', tryCandidate d n s c = some s' ∧ (s' = s ∨ ∃ b, b < s.medoids.length ∧
      s'.medoids = s.medoids.set b c ∧ c ∉ s.medoids ∧ td d n s'.medoids < td d n s.medoids ∧
      s'.loss < s.loss) := by
  obtain ⟨s', e, h', hcase⟩ := tryCandidate_spec hd hms h c hc
  refine ⟨s', e, ?_⟩
  rcases hcase with ⟨rfl, -⟩ | ⟨b, hb, em, hlt, -⟩
  · exact Or.inl rfl
  · refine Or.inr ⟨b, hb, em, ?_, hlt, by rw [h'.loss, h.loss]; exact hlt⟩
    intro hcm
    have := td_set_mem d n s.medoids c b hcm
    rw [← em] at this
    exact absurd hlt (not_lt.2 this)

/-- **C48** (partial: no ties at the start), any number of steps.  The number of medoids stays, they stay sample indices and stay
distinct, the total deviation does not increase. -/
theorem C48_steps_partial (vmax : K) (eq : K → K → Bool) (d : Nat → Nat → K) (n : Nat) (ms : List Nat)
    (hd : IsTable d n) (hms : ∀ m ∈ ms, m < n) (hnd : ms.Nodup) (hk : 2 ≤ ms.length)
    (hv : ∀ o, o < n → ∀ m ∈ ms, d m o < vmax) (ht : ∀ o, o < n → NoTies eq (dists d ms o)) (t : Nat) :
    ∃ s s', (pamInit vmax eq d n ms).bind (KMeans.runN (pamStep d n) t) = some s ∧
      pamStep d n s = some s' ∧ s.medoids.length = ms.length ∧ s.medoids.Nodup ∧
      (∀ m ∈ s.medoids, m < n) ∧ s'.loss ≤ s.loss ∧ s.loss ≤ td d n ms ∧
      (s'.medoids ≠ s.medoids → s'.loss < s.loss) := by
  obtain ⟨s0, e0, em, h0, -⟩ := pamInit_spec vmax eq hk hv ht
  obtain ⟨s, e, h, hm, hl, hn, hle⟩ := run_spec hd (by rw [em]; exact hms) h0 t
  obtain ⟨s', e', h', hl', hm', hn', hle', hlt', -⟩ := stepLoop_spec hd (List.range n) s
    (fun c hc => List.mem_range.1 hc) hm h
  refine ⟨s, s', by rw [e0]; exact e, e', by rw [hl, em], hn (by rw [em]; exact hnd), hm, ?_, ?_, ?_⟩
  · rw [h'.loss, h.loss]; exact hle'
  · rw [h.loss, ← em]; exact hle
  · rw [h'.loss, h.loss]; exact hlt'

theorem finite_medoids (n k : Nat) : {l : List Nat | l.length = k ∧ ∀ x ∈ l, x < n}.Finite := by
  refine ((List.finite_length_eq (Fin n) k).image (List.map Fin.val)).subset ?_
  rintro l ⟨hl, hx⟩
  refine ⟨l.pmap (fun x h => (⟨x, h⟩ : Fin n)) hx, by simpa using hl, ?_⟩
  rw [List.map_pmap]
  simp

/-- **C48**, any start, with or without ties.  Any number of steps is defined, the number of medoids
stays and they stay sample indices.  The reported total deviation starts at the total deviation, never
increases, and strictly decreases in every step that changes anything; it is never below the total
deviation of the current medoids, so the medoids are never worse than the medoids of the start. -/
theorem C48_never_worse_than_start (vmax : K) (eq : K → K → Bool) (d : Nat → Nat → K) (n : Nat)
    (ms : List Nat) (hd : IsTable d n) (hms : ∀ m ∈ ms, m < n) (hk : 2 ≤ ms.length)
    (hv : ∀ i o, i < n → o < n → d i o < vmax) (t : Nat) :
    ∃ s s', (pamInit vmax eq d n ms).bind (KMeans.runN (pamStep d n) t) = some s ∧
      pamStep d n s = some s' ∧ s.medoids.length = ms.length ∧ (∀ m ∈ s.medoids, m < n) ∧
      td d n s.medoids ≤ s.loss ∧ s.loss ≤ td d n ms ∧ (s' = s ∨ s'.loss < s.loss) ∧
      (t = 0 → s.loss = td d n ms) := by
  obtain ⟨s0, e0, em, h0, hl0⟩ := pamInit_wspec vmax eq hk hms hv
  obtain ⟨s, e, h, hl, hle⟩ := run_wspec hd hv h0 t
  obtain ⟨s', e', -, -, hc⟩ := stepLoop_wspec hd hv (List.range n) s (fun c hc => List.mem_range.1 hc) h
  refine ⟨s, s', by rw [e0]; exact e, e', by rw [hl, em], h.range, td_le_cached h, hl0 ▸ hle, hc, ?_⟩
  rintro rfl
  simp only [KMeans.runN, Option.some.injEq] at e
  rw [← e, hl0]

/-- **C48**, finitely many exchanges, with or without ties: after some number of steps the state never
changes again. -/
theorem C48_terminates (vmax : K) (eq : K → K → Bool) (d : Nat → Nat → K) (n : Nat) (ms : List Nat)
    (hd : IsTable d n) (hms : ∀ m ∈ ms, m < n) (hk : 2 ≤ ms.length)
    (hv : ∀ i o, i < n → o < n → d i o < vmax) :
    ∃ (N : Nat) (s : PState K), ∀ t, N ≤ t →
      (pamInit vmax eq d n ms).bind (KMeans.runN (pamStep d n) t) = some s := by
  obtain ⟨s0, e0, em, h0, -⟩ := pamInit_wspec vmax eq hk hms hv
  have hr := fun t => run_wspec hd hv h0 t
  choose f ef hf _ _ using hr
  have hfin : (Set.range fun t => (f t).loss).Finite := by
    refine ((finite_medoids n n).image
      fun a => ((List.range n).map fun o => d (a.getD o 0) o).sum).subset ?_
    rintro _ ⟨t, rfl⟩
    obtain ⟨a, ha, e⟩ := loss_values (hf t)
    exact ⟨a, ha, e.symm⟩
  obtain ⟨x, ⟨N, rfl⟩, hmin⟩ := Set.exists_min_image _ id hfin ⟨_, ⟨0, rfl⟩⟩
  have hconst : ∀ t, f (N + t) = f N := by
    intro t
    induction t with
    | zero => rfl
    | succ t ih =>
      obtain ⟨s', e', -, -, hc⟩ := stepLoop_wspec hd hv (List.range n) (f (N + t))
        (fun c hc => List.mem_range.1 hc) (hf _)
      have e2 : f (N + (t + 1)) = s' := by
        have := ef (N + (t + 1))
        rw [← Nat.add_assoc, KMeans.runN, ef, Option.bind_some] at this
        rw [show pamStep d n (f (N + t)) = some s' from e', Option.some.injEq] at this
        rw [← Nat.add_assoc]
        exact this.symm
      rcases hc with hc | hc
      · rw [e2, hc, ih]
      · have := hmin _ ⟨N + (t + 1), rfl⟩
        simp only [id] at this
        rw [e2] at this
        rw [ih] at hc
        exact absurd hc (not_lt.2 this)
  refine ⟨N, f N, fun t ht => ?_⟩
  rw [e0, Option.bind_some, ef, Option.some.injEq]
  obtain ⟨q, rfl⟩ := Nat.exists_eq_add_of_le ht
  exact hconst q

/-- **C49** (partial: only for the candidates that the step tries; the guard of the step compares the
index of the candidate with the *position* of its nearest medoid, see the counterexample).  If a step
leaves the medoids as they are, no exchange of a medoid with a sample `c` that is not the position of
its own nearest medoid lowers the total deviation. -/
theorem C49_local_optimum_partial (d : Nat → Nat → K) (n : Nat) (hd : IsTable d n) (s s' : PState K)
    (hms : ∀ m ∈ s.medoids, m < n) (h : BufOK d n s) (e : pamStep d n s = some s')
    (hfix : s'.medoids = s.medoids) (c : Nat) (hc : c < n)
    (hguard : ∀ i x, Smallest (dists d s.medoids c) [] i x → c ≠ i) (j : Nat)
    (hj : j < s.medoids.length) : td d n s.medoids ≤ td d n (s.medoids.set j c) := by
  obtain ⟨s1, e1, -, -, -, -, -, -, heq⟩ := stepLoop_spec hd (List.range n) s
    (fun c hc => List.mem_range.1 hc) hms h
  have : s1 = s' := by
    rw [pamStep, e1, Option.some.injEq] at e
    exact e
  subst this
  obtain ⟨r, er, hr, -⟩ := recAt h c hc
  exact (heq hfix).2 c (List.mem_range.2 hc) r er (hguard _ _ hr.1) j hj

/-- **C49** (partial) for the samples that cannot be skipped: every sample whose index is not smaller than the
number of medoids is tried, so a fixed point is a local optimum for all of them. -/
theorem C49_from_k_partial (d : Nat → Nat → K) (n : Nat) (hd : IsTable d n) (s s' : PState K)
    (hms : ∀ m ∈ s.medoids, m < n) (h : BufOK d n s) (e : pamStep d n s = some s')
    (hfix : s'.medoids = s.medoids) (c : Nat) (hc : c < n) (hck : s.medoids.length ≤ c) (j : Nat)
    (hj : j < s.medoids.length) : td d n s.medoids ≤ td d n (s.medoids.set j c) := by
  refine C49_local_optimum_partial d n hd s s' hms h e hfix c hc ?_ j hj
  intro i x hi
  have := lt_of_some hi.2.1
  simp only [dists, List.length_map] at this
  omega

end

/-! ### Examples -/

/-- Six points on a line, medoids at 0 and 13: the hypotheses of C47 and C48 hold. -/
theorem example_table : IsTable (line [0, 1, 5, 13, 20, 22]) 6 ∧
    (∀ o, o < 6 → NoTies eqZ (dists (line [0, 1, 5, 13, 20, 22]) [0, 3] o)) ∧
    ∀ i < 6, ∀ o < 6, line [0, 1, 5, 13, 20, 22] i o < 1000 := by
  refine ⟨⟨fun i o _ _ => abs_nonneg _, fun i _ => by simp [line]⟩, ?_, by decide +kernel⟩
  intro o ho i j x y hij hx hy
  have hi := lt_of_some hx
  have hj := lt_of_some hy
  simp only [dists, List.map_cons, List.map_nil, List.length_cons, List.length_nil] at hi hj hx hy
  have hne : ∀ o < 6, line [0, 1, 5, 13, 20, 22] 0 o ≠ line [0, 1, 5, 13, 20, 22] 3 o := by
    decide +kernel
  have := hne o ho
  rcases (by omega : i = 0 ∨ i = 1) with rfl | rfl <;>
  rcases (by omega : j = 0 ∨ j = 1) with rfl | rfl <;>
  simp only [List.getElem?_cons_zero, List.getElem?_cons_succ, Option.some.injEq] at hx hy <;>
  first
    | exact absurd rfl hij
    | (subst hx hy
       refine ⟨by first | exact this | exact this.symm, ?_⟩
       simp only [eqZ, decide_eq_false_iff_not]
       first | exact this | exact this.symm)

/-- The step of this example exchanges medoids, the loss goes from 22 to 14. -/
example : ((pamInit 1000 eqZ (line [0, 1, 5, 13, 20, 22]) 6 [0, 3]).map fun s => (s.medoids, s.loss)) =
      some ([0, 3], 22) ∧
    ((pamInit 1000 eqZ (line [0, 1, 5, 13, 20, 22]) 6 [0, 3]).bind
      (pamStep (line [0, 1, 5, 13, 20, 22]) 6)).map (fun s => (s.medoids, s.loss)) =
      some ([1, 4], 14) := by
  decide +kernel

example : ∃ s, pamInit 1000 eqZ (line [0, 1, 5, 13, 20, 22]) 6 [0, 3] = some s ∧
    BufOK (line [0, 1, 5, 13, 20, 22]) 6 s := by
  obtain ⟨s, e, -, h, -⟩ := pamInit_spec (1000 : ℤ) eqZ (d := line [0, 1, 5, 13, 20, 22]) (n := 6)
    (ms := [0, 3]) (by decide) (by decide +kernel) example_table.2.1
  exact ⟨s, e, h⟩

/-- With ties at the start the gain is wrong (C46 and C47 need the absence of ties): sample 0 is at the
same distance from both medoids, so its second distance is the greatest value.  The exchange of the
first medoid with sample 3 lowers the total deviation from 26 to 16, `find_best_swap` reports that the
best exchange with sample 3 changes nothing. -/
theorem C46_ties_counterexample :
    let d := line [5, 0, 10, 30, 11]
    ((pamInit 1000 eqZ d 5 [1, 2]).bind fun s => findBestSwap d 5 s 3) = some (0, 1) ∧
      td d 5 [1, 2] = 26 ∧ td d 5 ([1, 2].set 0 3) = 16 := by
  decide +kernel

/-- With ties at the start the reported total deviation is wrong after an exchange: sample 5 (at 3) is
at distance 2 of both medoids.  After trying the candidates 0 and 1 the loss is 7, the total deviation
of the medoids is 6. -/
theorem C47_ties_counterexample :
    let d := line [5, 6, 1, 8, 7, 3]
    ((pamInit 1000 eqZ d 6 [0, 2]).bind (stepLoop d 6 [0, 1])).map (fun s => (s.medoids, s.loss)) =
      some ([1, 2], 7) ∧ td d 6 [1, 2] = 6 := by
  decide +kernel

/-- A symmetric table of distances between five samples. -/
def tieTable : Nat → Nat → ℤ := fun i j =>
  ((([[0, 5, 9, 7, 7], [5, 0, 3, 6, 7], [9, 3, 0, 1, 9], [7, 6, 1, 0, 6], [7, 7, 9, 6, 0]] :
    List (List ℤ)).getD i []).getD j 0)

/-- With ties at the start an accepted exchange can make the clustering worse: sample 4 is at distance 7
of both medoids.  The step accepts two exchanges, the second one raises the total deviation from 11
to 12. -/
theorem C48_ties_counterexample :
    ((pamInit 1000 eqZ tieTable 5 [1, 0]).bind (stepLoop tieTable 5 [0, 1, 2])).map
      (fun s => s.medoids) = some [2, 0] ∧
    ((pamInit 1000 eqZ tieTable 5 [1, 0]).bind (stepLoop tieTable 5 [0, 1, 2, 3])).map
      (fun s => s.medoids) = some [3, 0] ∧
    td tieTable 5 [2, 0] = 11 ∧ td tieTable 5 [3, 0] = 12 := by
  decide +kernel

/-- The hypotheses of `C48_never_worse_than_start` and `C48_terminates` hold for this table and start,
which has ties.  The start has total deviation 16, the medoids reached 12, which is reported exactly. -/
example : IsTable tieTable 5 ∧ (∀ m ∈ [1, 0], m < 5) ∧ (∀ i o, i < 5 → o < 5 → tieTable i o < 1000) ∧
    td tieTable 5 [1, 0] = 16 ∧
    ((pamInit 1000 eqZ tieTable 5 [1, 0]).bind (KMeans.runN (pamStep tieTable 5) 9)).map
      (fun s => (s.medoids, s.loss)) = some ([3, 0], 12) := by
  refine ⟨⟨?_, ?_⟩, by decide, ?_, by decide +kernel, by decide +kernel⟩
  · have : ∀ i < 5, ∀ o < 5, 0 ≤ tieTable i o := by decide +kernel
    exact fun i o hi ho => this i hi o ho
  · decide +kernel
  · have : ∀ i < 5, ∀ o < 5, tieTable i o < 1000 := by decide +kernel
    exact fun i o hi ho => this i hi o ho

/-- Another symmetric table with zero diagonal, given by its lower triangle. -/
def tieTable2 : Nat → Nat → ℤ := fun i j =>
  if i = j then 0
  else ([1, 0, 1, 1, 0, 2, 1, 0, 1, 2, 2, 0, 2, 1, 2] : List ℤ).getD
    (max i j * (max i j - 1) / 2 + min i j) 0

/-- With ties at the start the medoids need not stay distinct. -/
theorem C48_duplicate_counterexample :
    ((pamInit 1000 eqZ tieTable2 6 [5, 3, 1]).bind (KMeans.runN (pamStep tieTable2 6) 3)).map
      (fun s => s.medoids) = some [1, 0, 1] ∧
    (∀ i < 6, ∀ j < 6, tieTable2 i j = tieTable2 j i ∧ 0 ≤ tieTable2 i j) ∧
    ∀ i < 6, tieTable2 i i = 0 := by
  decide +kernel

/-- **C49** is false: sample 0 is not a medoid, but its nearest medoid is at position 0, so the step
does not try it.  The step changes nothing although the exchange of the first medoid with sample 0
lowers the total deviation from 3 to 2. -/
theorem C49_skipped_counterexample :
    let d := line [0, 10, -1, 1]
    (((pamInit 1000 eqZ d 4 [2, 1]).bind (pamStep d 4)).map fun s => s.medoids) = some [2, 1] ∧
      td d 4 [2, 1] = 3 ∧ td d 4 ([2, 1].set 0 0) = 2 := by
  decide +kernel

/-- FasterPAM with a single medoid throws: the second nearest medoid is requested. -/
theorem C47_single_medoid (vmax : ℤ) (d : Nat → Nat → ℤ) (n m : Nat) :
    pamInit vmax eqZ d n [m] = none := by
  simp [pamInit, nthIndices, nearestIndices]

end Verif.KMedoids
