import Verif.Lemmas.FasterPAMRounding
import Verif.Spec.KMeans

/-
FasterPAM on integer distances so small that no sum is rounded: the rounded run is the exact one.
-/

namespace Verif.KMedoids

open Spec

variable {K : Type} [LinearOrder K] [CommRing K] [IsStrictOrderedRing K]

/-- `x` is an integer of at most `a` in absolute value. -/
def Grid {K : Type} [Ring K] (a : Nat) (x : K) : Prop := ∃ z : ℤ, x = z ∧ |z| ≤ a

variable {fl : K → K} {N D : Nat}

theorem Grid.add {a b : Nat} {x y : K} (h : Grid a x) (h' : Grid b y) : Grid (a + b) (x + y) := by
  obtain ⟨z, rfl, hz⟩ := h
  obtain ⟨w, rfl, hw⟩ := h'
  refine ⟨z + w, by push_cast; rfl, ?_⟩
  push_cast
  exact (abs_add_le _ _).trans (add_le_add hz hw)

theorem Grid.mono {a b : Nat} {x : K} (h : Grid a x) (hab : a ≤ b) : Grid b x := by
  obtain ⟨z, e, hz⟩ := h
  exact ⟨z, e, hz.trans (by exact_mod_cast hab)⟩

theorem grid_zero {a : Nat} : Grid a (0 : K) := ⟨0, by simp, by simp⟩

/-- A natural number of at most `D`. -/
def NatUpTo {K : Type} [Ring K] (D : Nat) (x : K) : Prop := ∃ z : ℕ, x = z ∧ z ≤ D

theorem NatUpTo.grid {x : K} (h : NatUpTo D x) : Grid D x := by
  obtain ⟨z, rfl, hz⟩ := h
  exact ⟨z, by push_cast; rfl, by rw [abs_of_nonneg (by positivity)]; exact_mod_cast hz⟩

theorem NatUpTo.sub {x y : K} (h : NatUpTo D x) (h' : NatUpTo D y) : Grid D (x - y) := by
  obtain ⟨z, rfl, hz⟩ := h
  obtain ⟨w, rfl, hw⟩ := h'
  refine ⟨(z : ℤ) - w, by push_cast; rfl, ?_⟩
  rw [abs_le]
  omega

/-- The rounding leaves integers of at most `N` as they are. -/
def Exact {K : Type} [Ring K] (fl : K → K) (N : Nat) : Prop := ∀ x, Grid N x → fl x = x

theorem addAtR_eq (H : Exact fl N) {l : List K} {a i : Nat} {v : K} (hl : ∀ x ∈ l, Grid a x)
    (hv : Grid D v) (hN : a + D ≤ N) : addAtR fl l i (fl v) = addAt l i v ∧
      ∀ l', addAt l i v = some l' → ∀ x ∈ l', Grid (a + D) x := by
  rw [H v (hv.mono (by omega))]
  unfold addAtR addAt
  cases e : l[i]? with
  | none => exact ⟨rfl, by intro l' h; cases h⟩
  | some x =>
    have hx := hl x (List.mem_of_getElem? e)
    simp only [Option.bind_eq_bind, Option.bind_some]
    rw [H _ ((hx.add hv).mono hN)]
    refine ⟨rfl, fun l' h y hy => ?_⟩
    rw [Option.some.injEq] at h
    subst h
    rcases List.mem_or_eq_of_mem_set hy with h' | rfl
    · exact (hl y h').mono (by omega)
    · exact hx.add hv

theorem removalLoopR_eq (H : Exact fl N) (rs : List (Rec K)) : ∀ (acc : List K) (a : Nat),
    (∀ x ∈ acc, Grid a x) → (∀ r ∈ rs, NatUpTo D r.d1 ∧ NatUpTo D r.d2) → a + rs.length * D ≤ N →
    removalLoopR fl rs acc = removalLoop rs acc ∧
      ∀ acc', removalLoop rs acc = some acc' → ∀ x ∈ acc', Grid (a + rs.length * D) x := by
  induction rs with
  | nil =>
    intro acc a h _ _
    refine ⟨rfl, fun acc' e => ?_⟩
    simp only [removalLoop, Option.some.injEq] at e
    subst e
    simpa using h
  | cons r rs ih =>
    intro acc a h hr hN
    have hN' : a + D + rs.length * D ≤ N := by
      rw [List.length_cons, Nat.add_mul, Nat.one_mul] at hN
      omega
    have hr0 := hr r (by simp)
    obtain ⟨e1, g1⟩ := addAtR_eq H (i := r.i1) h (hr0.2.sub hr0.1) (by
      have := Nat.zero_le (rs.length * D)
      omega)
    rw [removalLoopR, removalLoop, e1]
    cases e2 : addAt acc r.i1 (r.d2 - r.d1) with
    | none => exact ⟨rfl, by intro acc' h; cases h⟩
    | some a1 =>
      obtain ⟨e3, g3⟩ := ih a1 (a + D) (g1 a1 e2) (fun q hq => hr q (by simp [hq])) hN'
      refine ⟨e3, fun acc' h x hx => (g3 acc' h x hx).mono (le_of_eq ?_)⟩
      rw [List.length_cons, Nat.add_mul, Nat.one_mul]
      omega

theorem swapGainLoopR_eq (H : Exact fl N) (d : Nat → Nat → K) (buf : List (Rec K)) (c : Nat) (os : List Nat) :
    ∀ (mi : List K) (xc : K) (a : Nat), (∀ x ∈ mi, Grid a x) → Grid a xc →
      (∀ o ∈ os, NatUpTo D (d c o) ∧ ∀ r, buf[o]? = some r → NatUpTo D r.d1 ∧ NatUpTo D r.d2) →
      a + os.length * D ≤ N →
      swapGainLoopR fl d buf c os mi xc = swapGainLoop d buf c os mi xc ∧
        ∀ mi' xc', swapGainLoop d buf c os mi xc = some (mi', xc') →
          (∀ x ∈ mi', Grid (a + os.length * D) x) ∧ Grid (a + os.length * D) xc' := by
  induction os with
  | nil =>
    intro mi xc a h h' _ _
    refine ⟨rfl, fun mi' xc' e => ?_⟩
    simp only [swapGainLoop, Option.some.injEq, Prod.mk.injEq] at e
    obtain ⟨rfl, rfl⟩ := e
    simpa using ⟨h, h'⟩
  | cons o os ih =>
    intro mi xc a h h' ho hN
    have hN' : a + D + os.length * D ≤ N := by
      rw [List.length_cons, Nat.add_mul, Nat.one_mul] at hN
      omega
    have haD : a + D ≤ N := by
      have := Nat.zero_le (os.length * D)
      omega
    have hlen : a + D + os.length * D = a + (o :: os).length * D := by
      rw [List.length_cons, Nat.add_mul, Nat.one_mul]
      omega
    rw [← hlen]
    have ho' : ∀ q ∈ os, NatUpTo D (d c q) ∧ ∀ r, buf[q]? = some r → NatUpTo D r.d1 ∧ NatUpTo D r.d2 :=
      fun q hq => ho q (by simp [hq])
    obtain ⟨hdoc, hrec⟩ := ho o (by simp)
    rw [swapGainLoopR, swapGainLoop]
    cases er : buf[o]? with
    | none => exact ⟨rfl, by intro _ _ h; cases h⟩
    | some r =>
      obtain ⟨h1, h2⟩ := hrec r er
      simp only [Option.bind_eq_bind, Option.bind_some]
      have weak : ∀ x : K, Grid a x → Grid (a + D) x := fun x hx => hx.mono (by omega)
      by_cases c1 : d c o < r.d1
      · simp only [if_pos c1]
        obtain ⟨e1, g1⟩ := addAtR_eq H (i := r.i1) h (h1.sub h2) haD
        have ex : fl (xc + fl (d c o - r.d1)) = xc + (d c o - r.d1) := by
          have g := hdoc.sub h1
          rw [H _ (g.mono (by omega)), H _ ((h'.add g).mono haD)]
        rw [e1, ex]
        cases e2 : addAt mi r.i1 (r.d1 - r.d2) with
        | none => exact ⟨rfl, by intro _ _ h; cases h⟩
        | some a1 => exact ih a1 _ (a + D) (g1 a1 e2) (h'.add (hdoc.sub h1)) ho' hN'
      · simp only [if_neg c1]
        by_cases c2 : d c o < r.d2
        · simp only [if_pos c2]
          obtain ⟨e1, g1⟩ := addAtR_eq H (i := r.i1) h (hdoc.sub h2) haD
          rw [e1]
          cases e2 : addAt mi r.i1 (d c o - r.d2) with
          | none => exact ⟨rfl, by intro _ _ h; cases h⟩
          | some a1 => exact ih a1 _ (a + D) (g1 a1 e2) (weak _ h') ho' hN'
        · simp only [if_neg c2]
          exact ih mi xc (a + D) (fun x hx => weak x (h x hx)) (weak _ h') ho' hN'

theorem lossLoopR_eq (H : Exact fl N) (buf : List (Rec K)) (c : Nat) (os : List Nat) :
    ∀ (acc : K) (a : Nat), Grid a acc → (∀ o ∈ os, ∀ r, buf[o]? = some r → NatUpTo D r.d1) →
      a + os.length * D ≤ N → lossLoopR fl buf c os acc = lossLoop buf c os acc := by
  induction os with
  | nil => intro acc a _ _ _; rfl
  | cons o os ih =>
    intro acc a h ho hN
    have hN' : a + D + os.length * D ≤ N := by
      rw [List.length_cons, Nat.add_mul, Nat.one_mul] at hN
      omega
    have ho' : ∀ q ∈ os, ∀ r, buf[q]? = some r → NatUpTo D r.d1 := fun q hq => ho q (by simp [hq])
    rw [lossLoopR, lossLoop]
    by_cases hc : o = c
    · rw [if_pos hc, if_pos hc]
      exact ih acc (a + D) (h.mono (by omega)) ho' hN'
    · rw [if_neg hc, if_neg hc]
      cases er : buf[o]? with
      | none => rfl
      | some r =>
        simp only [Option.bind_eq_bind, Option.bind_some]
        have g := h.add (ho o (by simp) r er).grid
        rw [H _ (g.mono (by have := Nat.zero_le (os.length * D); omega))]
        exact ih _ (a + D) g ho' hN'

theorem foldlR_eq (H : Exact fl N) (l : List K) : ∀ (acc : K) (a : Nat), Grid a acc →
    (∀ x ∈ l, NatUpTo D x) → a + l.length * D ≤ N →
    l.foldl (fun s x => fl (s + x)) acc = acc + l.sum := by
  induction l with
  | nil => intro acc a _ _ _; simp
  | cons x l ih =>
    intro acc a h hx hN
    have hN' : a + D + l.length * D ≤ N := by
      rw [List.length_cons, Nat.add_mul, Nat.one_mul] at hN
      omega
    have g := h.add (hx x (by simp)).grid
    rw [List.foldl_cons, H _ (g.mono (by have := Nat.zero_le (l.length * D); omega)),
      ih _ (a + D) g (fun y hy => hx y (by simp [hy])) hN', List.sum_cons, add_assoc]

section State

variable {d : Nat → Nat → K} {n : Nat}

/-- All distances are natural numbers of at most `D`. -/
def Whole {K : Type} [Ring K] (d : Nat → Nat → K) (n D : Nat) : Prop := ∀ i o, i < n → o < n → NatUpTo D (d i o)

theorem whole_recs (hw : Whole d n D) {ms : List Nat} {buf : List (Rec K)} (hms : ∀ m ∈ ms, m < n)
    (hl : buf.length = n)
    (h : ∀ (o : Nat) (r : Rec K), buf[o]? = some r → FirstTwo (dists d ms o) r) (o : Nat) (r : Rec K)
    (er : buf[o]? = some r) : NatUpTo D r.d1 ∧ NatUpTo D r.d2 := by
  have ho : o < n := by
    by_contra hn
    rw [List.getElem?_eq_none (by omega)] at er
    cases er
  have hr := h o r er
  have hmem : ∀ (i : Nat) (x : K), (dists d ms o)[i]? = some x → NatUpTo D x := by
    intro i x hx
    have := List.mem_of_getElem? hx
    simp only [dists, List.mem_map] at this
    obtain ⟨q, hq, rfl⟩ := this
    exact hw q o (hms q hq) ho
  exact ⟨hmem _ _ hr.1.2.1, hmem _ _ hr.2.2.1⟩

theorem removalR_eq (H : Exact fl N) (hN : n * D ≤ N) (hw : Whole d n D) {ms : List Nat}
    {buf : List (Rec K)} (hms : ∀ m ∈ ms, m < n) (hl : buf.length = n)
    (h : ∀ (o : Nat) (r : Rec K), buf[o]? = some r → FirstTwo (dists d ms o) r) (k : Nat) :
    removalR fl k buf = removal k buf ∧ ∀ rem, removal k buf = some rem → ∀ x ∈ rem, Grid (n * D) x := by
  have := removalLoopR_eq (D := D) H buf (List.replicate k 0) 0
    (fun x hx => by rw [List.eq_of_mem_replicate hx]; exact grid_zero)
    (fun r hr => by
      obtain ⟨o, ho, rfl⟩ := List.mem_iff_getElem.1 hr
      exact whole_recs hw hms hl h o _ (List.getElem?_eq_getElem ho)) (by rw [hl]; omega)
  rw [hl, Nat.zero_add] at this
  exact this

theorem tryCandidateR_eq (H : Exact fl N) (hN : 4 * n * D ≤ N) (hd : IsTable d n) (hw : Whole d n D)
    {s : PState K} (hms : ∀ m ∈ s.medoids, m < n) (h : BufOK d n s) (c : Nat) (hc : c < n) :
    tryCandidateR fl d n s c = tryCandidate d n s c := by
  have hN4 : n * D + n * D + (n * D + n * D) ≤ N := by
    have : 4 * n * D = n * D + n * D + (n * D + n * D) := by ring
    omega
  have hrem := (removalR_eq H (by omega) hw hms h.len h.recs s.medoids.length).2 _ h.rem
  obtain ⟨e1, g1⟩ := swapGainLoopR_eq (D := D) H d s.buf c (List.range n) s.removal 0 (n * D) hrem grid_zero
    (fun o ho => ⟨hw c o hc (List.mem_range.1 ho), fun r er => whole_recs hw hms h.len h.recs o r er⟩)
    (by rw [List.length_range]; omega)
  have ef : findBestSwapR fl d n s c = findBestSwap d n s c := by
    unfold findBestSwapR findBestSwap
    rw [e1]
    cases e2 : swapGainLoop d s.buf c (List.range n) s.removal 0 with
    | none => rfl
    | some q =>
      obtain ⟨mi, xc⟩ := q
      obtain ⟨gm, gx⟩ := g1 mi xc e2
      simp only [Option.bind_eq_bind, Option.bind_some]
      by_cases hne : mi = []
      · subst hne; rfl
      obtain ⟨i, v, e3, hi, -, -⟩ := Stats.minPair_spec mi hne
      rw [e3]
      simp only [Option.bind_some]
      have gv := gm v (List.mem_of_getElem? hi)
      rw [List.length_range] at gv gx
      rw [H _ ((gx.add gv).mono (by omega))]
  obtain ⟨r, er, -, -, -⟩ := recAt h c hc
  simp only [tryCandidateR, tryCandidate, er, Option.bind_eq_bind, Option.bind_some, ef]
  by_cases hcr : c = r.i1
  · rw [if_pos hcr, if_pos hcr]
  rw [if_neg hcr, if_neg hcr]
  obtain ⟨delta, b, e3, hb, -, -⟩ := findBestSwap_spec h c
  simp only [e3, Option.bind_some]
  by_cases hneg : delta < 0
  · rw [if_pos hneg, if_pos hneg]
    obtain ⟨buf', e4, hl', hr'⟩ := swapBuffers_spec hd hms h.len h.recs c b hc hb
    have hms' : ∀ m ∈ s.medoids.set b c, m < n := by
      intro m hm
      rcases List.mem_or_eq_of_mem_set hm with h' | rfl
      · exact hms m h'
      · exact hc
    have e5 : swapBuffersR fl d n (s.medoids.set b c) s.buf c b = swapBuffers d n (s.medoids.set b c) s.buf c b := by
      rw [e4]
      unfold swapBuffers at e4
      rw [Option.bind_eq_bind, Option.bind_eq_some_iff] at e4
      obtain ⟨buf1, e6, e7⟩ := e4
      rw [Option.bind_eq_bind, Option.bind_eq_some_iff] at e7
      obtain ⟨v1, e8, e9⟩ := e7
      rw [Option.some.injEq, Prod.mk.injEq] at e9
      obtain ⟨rfl, rfl⟩ := e9
      unfold swapBuffersR
      rw [Option.bind_eq_bind, Option.bind_eq_some_iff]
      refine ⟨buf1, e6, ?_⟩
      rw [lossLoopR_eq (D := D) H buf1 c (List.range n) 0 0 grid_zero
        (fun o _ r er => (whole_recs hw hms' hl' hr' o r er).1) (by rw [List.length_range]; omega), e8]
      rfl
    rw [e5, e4]
    simp only [Option.bind_some]
    rw [(removalR_eq H (by omega) hw hms' hl' hr' _).1]
  · rw [if_neg hneg, if_neg hneg]

theorem stepLoopR_eq (H : Exact fl N) (hN : 4 * n * D ≤ N) (hd : IsTable d n) (hw : Whole d n D) (cs : List Nat) :
    ∀ s : PState K, (∀ c ∈ cs, c < n) → (∀ m ∈ s.medoids, m < n) → BufOK d n s →
      stepLoopR fl d n cs s = stepLoop d n cs s := by
  induction cs with
  | nil => intro s _ _ _; rfl
  | cons c cs ih =>
    intro s hcs hms h
    rw [stepLoopR, stepLoop, tryCandidateR_eq H hN hd hw hms h c (hcs c (by simp))]
    obtain ⟨s1, e1, h1, hcase⟩ := tryCandidate_spec hd hms h c (hcs c (by simp))
    rw [e1]
    simp only [Option.bind_eq_bind, Option.bind_some]
    refine ih s1 (fun q hq => hcs q (by simp [hq])) ?_ h1
    rcases hcase with ⟨rfl, -⟩ | ⟨b, hb, em, -⟩
    · exact hms
    · intro m hm
      rw [em] at hm
      rcases List.mem_or_eq_of_mem_set hm with h' | rfl
      · exact hms m h'
      · exact hcs _ (by simp)

theorem pamInitR_eq (H : Exact fl N) (hN : 4 * n * D ≤ N) (hw : Whole d n D) (vmax : K)
    (eq : K → K → Bool) {ms : List Nat} (hms : ∀ m ∈ ms, m < n) (hk : 2 ≤ ms.length)
    (hv : ∀ o, o < n → ∀ m ∈ ms, d m o < vmax) (ht : ∀ o, o < n → NoTies eq (dists d ms o)) :
    pamInitR fl vmax eq d n ms = pamInit vmax eq d n ms := by
  have hN1 : n * D ≤ N := by
    have : 4 * n * D = n * D + 3 * (n * D) := by ring
    omega
  obtain ⟨s, e, em, h, -⟩ := pamInit_spec vmax eq hk hv ht
  rw [e]
  unfold pamInit at e
  simp only [Option.bind_eq_bind, Option.bind_eq_some_iff] at e
  obtain ⟨i1s, e1, i2s, e2, d1s, e3, d2s, e4, buf, e5, rem, e6, e7⟩ := e
  rw [Option.some.injEq] at e7
  subst e7
  unfold pamInitR
  simp only [Option.bind_eq_bind, Option.bind_eq_some_iff]
  refine ⟨i1s, e1, i2s, e2, d1s, e3, d2s, e4, buf, e5, rem, ?_, ?_⟩
  · rw [(removalR_eq H hN1 hw hms h.len h.recs _).1]
    exact e6
  · have hne : ms ≠ [] := by rintro rfl; simp at hk
    have e3' : d1s = (List.range n).map fun o => (first vmax (row d ms o)).2 := by
      rw [nthDistances, if_neg (by omega), if_neg hne, if_pos rfl, nearestDistances, if_neg hne,
        Option.some.injEq] at e3
      exact e3.symm
    rw [foldlR_eq (D := D) H d1s 0 0 grid_zero ?_ (by rw [e3', List.length_map, List.length_range]; omega), zero_add]
    intro x hx
    rw [e3', List.mem_map] at hx
    obtain ⟨o, ho, rfl⟩ := hx
    rw [List.mem_range] at ho
    have h2 := second_spec vmax eq (dists d ms o) (by simpa [dists] using hk) (by
      intro v hv'
      simp only [dists, List.mem_map] at hv'
      obtain ⟨m, hm, rfl⟩ := hv'
      exact hv o ho m hm) (ht o ho)
    have hs := second_first vmax eq (row d ms o) 0 ⟨0, vmax, 0, vmax⟩
    have hmem := List.mem_of_getElem? h2.1.2.1
    have hfs : (first vmax (row d ms o)).2 = (second vmax eq (dists d ms o)).d1 := hs.2.symm
    rw [hfs]
    simp only [dists, List.mem_map] at hmem
    obtain ⟨q, hq, e⟩ := hmem
    have := hw q o (hms q hq) ho
    rw [e] at this
    exact this

end State

end Verif.KMedoids
