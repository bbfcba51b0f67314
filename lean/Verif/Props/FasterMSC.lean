import Verif.Lemmas.FasterMSC
import Mathlib.Algebra.Order.Ring.Rat
import Mathlib.Algebra.Order.Field.Rat
import Mathlib.Data.Rat.Cast.Order

/-
Properties C50, C51, C70 and C71: the exchanges of FasterMSC.
-/

namespace Verif.KMedoids

open Spec

/-- Distances of points on a line, for the examples. -/
def lineQ (xs : List ℚ) : Nat → Nat → ℚ := fun i j => |xs.getD i 0 - xs.getD j 0|

/-- Equality, for the examples. -/
def eqQ : ℚ → ℚ → Bool := fun a b => decide (a = b)

section

variable {K : Type} [LinearOrder K] [Field K] [IsStrictOrderedRing K]

/-! ### C50 -/

/-- **C50**.  With three or more medoids, whenever the cached three nearest medoids are right
(`BufOK3`), `find_best_swap` returns a position and the exact decrease of the sum over the samples of
the ratio of the distances to the two nearest medoids when the medoid at this position is exchanged with
the candidate, and no other position gives a smaller sum.  The only property of `common::division` used
is that it adds over the numerator, so the result does not depend on the comparison with 0. -/
theorem C50_swap_gain (eq : K → K → Bool) (d : Nat → Nat → K) (n : Nat) (s : MState K)
    (h : BufOK3 (division eq) d n s) (c : Nat) :
    ∃ delta i, findBestSwap3 (division eq) d n s c = some (delta, i) ∧ i < s.medoids.length ∧
      delta = ms (division eq) d n s.medoids - ms (division eq) d n (s.medoids.set i c) ∧
      ∀ j, j < s.medoids.length →
        ms (division eq) d n (s.medoids.set i c) ≤ ms (division eq) d n (s.medoids.set j c) := by
  obtain ⟨delta, i, e, hi, hms, hbest⟩ := findBestSwap3_spec (division eq) (division_add eq) h c
  refine ⟨delta, i, e, hi, by rw [hms]; ring, fun j hj => ?_⟩
  rw [hms]
  exact hbest j hj

/-- The hypothesis of `C50_swap_gain` holds after construction when no sample is at the same distance
from two medoids. -/
theorem C50_start (vmax : K) (eq : K → K → Bool) (d : Nat → Nat → K) (n : Nat) (meds : List Nat)
    (hk : 3 ≤ meds.length) (hv : ∀ o, o < n → ∀ m ∈ meds, d m o < vmax)
    (ht : ∀ o, o < n → NoTies eq (dists d meds o)) :
    ∃ s, mscInit vmax eq d n meds = some s ∧ s.medoids = meds ∧ BufOK3 (division eq) d n s := by
  obtain ⟨s, e, em, h, -⟩ := mscInit_spec vmax eq hk hv ht
  exact ⟨s, e, em, h⟩

/-! ### C51 -/

theorem division_zero (eq : K → K → Bool) (x : K) : division eq 0 x = 0 := by
  unfold division
  split
  · rfl
  · rw [zero_div]

/-- **C51** (partial: three or more medoids, and every sample either has its third nearest medoid at a
position other than 0 or is nearer to the candidate than to it; see `C51_counterexample` for the rest).
When the cached three nearest medoids are right before `swap_buffers` they are right after it, and the
loss computed by `swap_buffers` is the sum of the ratios for the new medoids. -/
theorem C51_swap_buffers_partial (eq : K → K → Bool) (d : Nat → Nat → K) (n : Nat) (s : MState K)
    (hd : IsTable d n) (hms : ∀ m ∈ s.medoids, m < n) (h : BufOK3 (division eq) d n s)
    (c b : Nat) (hc : c < n) (hb : b < s.medoids.length)
    (hz : ∀ (o : Nat) (r : Rec3 K), o ≠ c → s.buf[o]? = some r → r.i3 ≠ 0 ∨ d c o < r.d3) :
    ∃ buf loss, swapBuffers3 (division eq) d n (s.medoids.set b c) s.buf c b = some (buf, loss) ∧
      loss = ms (division eq) d n (s.medoids.set b c) ∧ buf.length = n ∧
      ∀ o, o < n → ∃ r : Rec3 K, buf[o]? = some r ∧
        Smallest (dists d (s.medoids.set b c) o) [] r.i1 r.d1 ∧
        Smallest (dists d (s.medoids.set b c) o) [r.i1] r.i2 r.d2 ∧
        Smallest (dists d (s.medoids.set b c) o) [r.i1, r.i2] r.i3 r.d3 := by
  obtain ⟨buf, e, hl, hr⟩ := swapBuffers3_spec (division eq) (division_zero eq) hd hms h.len h.recs
    c b hc hb hz
  refine ⟨buf, _, e, rfl, hl, fun o ho => ?_⟩
  obtain ⟨r, er, hr, -, -⟩ := recAt3 hl hr o ho
  exact ⟨r, er, hr.1, hr.2.1, hr.2.2⟩

/-- **C51**, whatever the third position: right records stay right for the nearest medoid, except that
the second and third can be wrong.  (The nearest one is what `total_deviation` of FasterPAM needs; the
ratio also needs the second.) -/
theorem C51_nearest_partial {l : List K} {r : Rec3 K} (h' : FirstThree l r) (b : Nat)
    (hb : b < l.length) (doc : K) :
    let r' := swapSample3 (l.set b doc) false doc b r
    Smallest (l.set b doc) [] r'.i1 r'.d1 := by
  have h := (firstThree_iff _ _).1 h'
  have hs := set_iff l b doc hb
  have h12 := h.n12
  have hbd : (l.set b doc)[b]? = some doc := (hs _ _).2 (Or.inl ⟨rfl, rfl⟩)
  have key1 : ∀ (i : Nat) (x : K), i ≠ b → l[i]? = some x → x ≤ doc →
      (∀ (j : Nat) (y : K), j ≠ b → l[j]? = some y → x ≤ y) → Smallest (l.set b doc) [] i x := by
    intro i x hi hx hd hle
    refine ⟨by simp, (hs _ _).2 (Or.inr ⟨hi, hx⟩), fun j y _ hy => ?_⟩
    rcases (hs _ _).1 hy with ⟨-, rfl⟩ | ⟨hj, hy⟩
    · exact hd
    · exact hle j y hj hy
  have key2 : (∀ (j : Nat) (y : K), j ≠ b → l[j]? = some y → doc ≤ y) →
      Smallest (l.set b doc) [] b doc := by
    intro hle
    refine ⟨by simp, hbd, fun j y _ hy => ?_⟩
    rcases (hs _ _).1 hy with ⟨-, rfl⟩ | ⟨hj, hy⟩
    · exact le_refl _
    · exact hle j y hj hy
  have f2 : r.i1 = b → doc < r.d2 → Smallest (l.set b doc) [] b doc := fun e hlt =>
    key2 fun j y hj hy => le_trans hlt.le (h.le2 j y (by omega) hy)
  have g2 : r.i1 = b → ¬ doc < r.d2 → Smallest (l.set b doc) [] r.i2 r.d2 := fun e hlt =>
    key1 _ _ (by omega) h.a2 (not_lt.1 hlt) fun j y hj hy => h.le2 j y (by omega) hy
  have f1 : doc < r.d1 → Smallest (l.set b doc) [] b doc := fun hlt =>
    key2 fun j y hj hy => le_trans hlt.le (h.le1 j y hy)
  have g1 : r.i1 ≠ b → ¬ doc < r.d1 → Smallest (l.set b doc) [] r.i1 r.d1 := fun e hlt =>
    key1 _ _ e h.a1 (not_lt.1 hlt) fun j y hj hy => h.le1 j y hy
  dsimp only
  unfold swapSample3
  rw [if_neg (by simp)]
  split
  · rename_i e
    split
    · rename_i hlt; exact f2 e hlt
    · rename_i hlt
      split <;> exact g2 e hlt
  · rename_i e
    split
    · split
      · rename_i hlt; exact f1 hlt
      · rename_i hlt
        split <;> exact g1 e hlt
    · split
      · rename_i hlt; exact f1 hlt
      · rename_i hlt
        repeat' split
        all_goals exact g1 e hlt

/-! ### C70 -/

/-- **C70** (negation of the first half).  With three or more medoids the total deviation reported after
construction is the sum of the distances to the nearest medoids, as in PAM, not the sum of the ratios
that the exchanges lower and that is reported after them. -/
theorem C70_start (vmax : K) (eq : K → K → Bool) (d : Nat → Nat → K) (n : Nat) (meds : List Nat)
    (hk : 3 ≤ meds.length) (hv : ∀ o, o < n → ∀ m ∈ meds, d m o < vmax)
    (ht : ∀ o, o < n → NoTies eq (dists d meds o)) :
    ∃ s, mscInit vmax eq d n meds = some s ∧ s.loss = td d n meds := by
  obtain ⟨s, e, -, -, hl⟩ := mscInit_spec vmax eq hk hv ht
  exact ⟨s, e, hl⟩

/-- **C70** and **C71** (partial: three or more medoids, right buffers and the condition of
`C51_swap_buffers_partial`).  Trying a candidate either leaves the state as it is, or replaces the medoid
whose replacement gives the smallest sum of ratios, the sum is strictly smaller, the buffers are right
and the reported loss is the sum of the ratios. -/
theorem C71_exchange_partial (eq : K → K → Bool) (d : Nat → Nat → K) (n : Nat) (s : MState K)
    (hd : IsTable d n) (hms : ∀ m ∈ s.medoids, m < n) (h : BufOK3 (division eq) d n s)
    (c : Nat) (hc : c < n)
    (hz : ∀ (o : Nat) (r : Rec3 K), o ≠ c → s.buf[o]? = some r → r.i3 ≠ 0 ∨ d c o < r.d3) :
    ∃ s', tryCandidate3 eq d n s c = some s' ∧ (s' = s ∨ ∃ b, b < s.medoids.length ∧
      s'.medoids = s.medoids.set b c ∧ BufOK3 (division eq) d n s' ∧
      s'.loss = ms (division eq) d n s'.medoids ∧
      ms (division eq) d n s'.medoids < ms (division eq) d n s.medoids ∧
      ∀ j, j < s.medoids.length →
        ms (division eq) d n s'.medoids ≤ ms (division eq) d n (s.medoids.set j c)) := by
  obtain ⟨r, er, -, -, -⟩ := recAt3 h.len h.recs c hc
  have h3 := h.three
  simp only [tryCandidate3, er, Option.bind_eq_bind, Option.bind_some]
  split
  · exact ⟨s, rfl, Or.inl rfl⟩
  · rw [if_neg (by omega)]
    obtain ⟨delta, b, e1, hb, hdel, hbest⟩ := findBestSwap3_spec (division eq) (division_add eq) h c
    simp only [e1, Option.bind_some]
    split
    · rename_i hpos
      obtain ⟨buf', e2, hl2, hr2⟩ := swapBuffers3_spec (division eq) (division_zero eq) hd hms h.len
        h.recs c b hc hb hz
      obtain ⟨rem, e3⟩ := removal3_some (division eq) hr2
      simp only [e2, Option.bind_some, e3]
      refine ⟨_, rfl, Or.inr ⟨b, hb, rfl, ⟨by simpa using h3, hl2, hr2, e3⟩, rfl, ?_, ?_⟩⟩
      · dsimp only
        rw [hdel]
        linarith
      · intro j hj
        dsimp only
        rw [hdel]
        exact hbest j hj
    · exact ⟨s, rfl, Or.inl rfl⟩

/-! ### Two medoids -/

/-- The buffers with two medoids as `find_best_swap_k2` and `swap_buffers_k2` read them: the first
distance is to the medoid at position 0 and the second to the medoid at position 1. -/
def ByPosition (d : Nat → Nat → K) (n m0 m1 : Nat) (buf : List (Rec3 K)) (skip : Nat → Prop) : Prop :=
  buf.length = n ∧ ∀ o, o < n → ¬ skip o → ∃ r, buf[o]? = some r ∧ r.d1 = d m0 o ∧ r.d2 = d m1 o

theorem ratio_pair (dv : K → K → K) (a b : K) :
    ratio dv [a, b] = if a < b then dv a b else dv b a := by
  unfold ratio
  by_cases hab : a ≤ b
  · simp only [List.insertionSort, List.foldr, List.orderedInsert, if_pos hab]
    split
    · rfl
    · rename_i hn
      have : a = b := le_antisymm hab (not_lt.1 hn)
      rw [this]
  · simp only [List.insertionSort, List.foldr, List.orderedInsert, if_neg hab]
    rw [if_neg (fun h => hab h.le)]

theorem swapGainLoop2_spec (dv : K → K → K) (d : Nat → Nat → K) (n : Nat) (buf : List (Rec3 K))
    (m0 m1 c : Nat) (h : ByPosition d n m0 m1 buf fun _ => False) (os : List Nat) :
    ∀ a0 a1 : K, (∀ o ∈ os, o < n) → swapGainLoop2 dv d buf c os (a0, a1) =
      some (a0 + (os.map fun o => ratio dv [d c o, d m1 o]).sum,
        a1 + (os.map fun o => ratio dv [d m0 o, d c o]).sum) := by
  induction os with
  | nil => intro a0 a1 _; simp [swapGainLoop2]
  | cons o os ih =>
    intro a0 a1 ho
    obtain ⟨r, er, e1, e2⟩ := h.2 o (ho o (by simp)) (fun f => f)
    simp only [swapGainLoop2, er, Option.bind_eq_bind, Option.bind_some]
    rw [ih _ _ (fun q hq => ho q (by simp [hq]))]
    simp only [List.map_cons, List.sum_cons, e1, e2, ← add_assoc]
    have ec : ∀ x y : K, ratio dv [x, y] = ratio dv [y, x] := by
      intro x y
      rw [ratio_pair, ratio_pair]
      rcases lt_trichotomy x y with hlt | rfl | hlt
      · rw [if_pos hlt, if_neg (not_lt.2 hlt.le)]
      · rfl
      · rw [if_pos hlt, if_neg (not_lt.2 hlt.le)]
    rw [ec (d m0 o) (d c o), ratio_pair, ratio_pair]

/-- **C50**, two medoids (partial: the buffers are stored by position, which the constructor does not
do, see `C71_two_medoids_counterexample`).  `find_best_swap_k2` returns a position and the sum of the
ratios after the exchange at this position, and the other position does not give a smaller sum. -/
theorem C50_two_medoids_partial (dv : K → K → K) (d : Nat → Nat → K) (n m0 m1 c : Nat) (s : MState K)
    (hm : s.medoids = [m0, m1]) (h : ByPosition d n m0 m1 s.buf fun _ => False) :
    ∃ v i, findBestSwap2 dv d n s c = some (v, i) ∧ i < 2 ∧ v = ms dv d n (s.medoids.set i c) ∧
      ∀ j, j < 2 → ms dv d n (s.medoids.set i c) ≤ ms dv d n (s.medoids.set j c) := by
  have e := swapGainLoop2_spec dv d n s.buf m0 m1 c h (List.range n) 0 0 (fun o => List.mem_range.1)
  have e0 : ms dv d n (s.medoids.set 0 c) = ((List.range n).map fun o => ratio dv [d c o, d m1 o]).sum := by
    rw [hm]; rfl
  have e1 : ms dv d n (s.medoids.set 1 c) = ((List.range n).map fun o => ratio dv [d m0 o, d c o]).sum := by
    rw [hm]; rfl
  rw [zero_add, zero_add, ← e0, ← e1] at e
  obtain ⟨i, v, e2, hi, hmin, -⟩ := Stats.minPair_spec
    [ms dv d n (s.medoids.set 0 c), ms dv d n (s.medoids.set 1 c)] (by simp)
  have hi2 : i < 2 := by have := lt_of_some hi; simpa using this
  have hv : v = ms dv d n (s.medoids.set i c) := by
    rcases (by omega : i = 0 ∨ i = 1) with rfl | rfl
    · simpa using hi.symm
    · simpa using hi.symm
  refine ⟨v, i, ?_, hi2, hv, fun j hj => ?_⟩
  · simp only [findBestSwap2, e, Option.bind_eq_bind, Option.bind_some, e2, zero_add]
  · rw [← hv]
    apply hmin
    rcases (by omega : j = 0 ∨ j = 1) with rfl | rfl <;> simp

/-- **C51**, two medoids (partial: stored by position before, and not for the candidate itself, whose
second distance is set to 0).  `swap_buffers_k2` keeps the distances by position, the index stored is a
position of a nearest medoid and the loss is the sum of the ratios for the new medoids. -/
theorem C51_two_medoids_partial (eq : K → K → Bool) (heq : ∀ a b, eq a b = true ↔ a = b)
    (d : Nat → Nat → K) (n m0 m1 c b : Nat)
    (buf : List (Rec3 K)) (hd : IsTable d n) (h0 : m0 < n) (h1 : m1 < n) (hc : c < n) (hb : b < 2)
    (h : ByPosition d n m0 m1 buf fun _ => False) :
    ∃ buf' loss, swapBuffers2 eq (division eq) d n buf c b = some (buf', loss) ∧
      loss = ms (division eq) d n ([m0, m1].set b c) ∧
      (b = 0 → ByPosition d n c m1 buf' (· = c)) ∧ (b = 1 → ByPosition d n m0 c buf' (· = c)) ∧
      ∀ o, o < n → ∃ r m, buf'[o]? = some r ∧ ([m0, m1].set b c)[r.i1]? = some m ∧
        ∀ m' ∈ [m0, m1].set b c, d m o ≤ d m' o := by
  let dv := division eq
  let g : Nat → Rec3 K × K := fun o =>
    swapSample2 eq dv (decide (o = c)) (d c o) b ((buf[o]?).getD ⟨0, 0, 0, 0, 0, 0⟩)
  have e1 : (List.range n).mapM (fun o => do
      let r ← buf[o]?
      pure (swapSample2 eq dv (decide (o = c)) (d c o) b r)) = some ((List.range n).map g) := by
    apply KMeans.mapM_some
    intro o ho
    have ho' : o < buf.length := by rw [h.1]; exact List.mem_range.1 ho
    simp only [g, List.getElem?_eq_getElem ho', Option.getD_some, Option.bind_eq_bind,
      Option.bind_some]
    rfl
  have hg : ∀ o, o < n → ∃ r, buf[o]? = some r ∧ r.d1 = d m0 o ∧ r.d2 = d m1 o ∧
      g o = swapSample2 eq dv (decide (o = c)) (d c o) b r := by
    intro o ho
    obtain ⟨r, er, ea, eb⟩ := h.2 o ho (fun f => f)
    exact ⟨r, er, ea, eb, by simp only [g, er, Option.getD_some]⟩
  have hget : ∀ o, o < n → (((List.range n).map g).map (·.1))[o]? = some (g o).1 := by
    intro o ho
    rw [List.getElem?_map, List.getElem?_map, List.getElem?_range ho]
    rfl
  have hbb : b = 0 ∨ b = 1 := by omega
  refine ⟨((List.range n).map g).map (·.1), (((List.range n).map g).map (·.2)).sum, ?_, ?_, ?_, ?_, ?_⟩
  · simp only [Option.bind_eq_bind] at e1
    simp only [swapBuffers2, Option.bind_eq_bind]
    exact (congrArg (fun x => Option.bind x fun ps : List (Rec3 K × K) =>
      some (ps.map (·.1), (ps.map (·.2)).sum)) e1)
  · rw [List.map_map]
    unfold ms
    congr 1
    apply List.map_congr_left
    intro o ho
    have ho := List.mem_range.1 ho
    obtain ⟨r, -, ea, eb, eg⟩ := hg o ho
    simp only [Function.comp, eg]
    unfold swapSample2
    by_cases hoc : o = c
    · subst hoc
      simp only [decide_true, if_true]
      have z : ∀ x : K, 0 ≤ x → ratio (division eq) [0, x] = 0 ∧ ratio (division eq) [x, 0] = 0 := by
        intro x hx
        rw [ratio_pair, ratio_pair, division_zero]
        constructor
        · split
          · rfl
          · rename_i hn
            rw [le_antisymm (not_lt.1 hn) hx, division_zero]
        · rw [if_neg (not_lt.2 hx)]
      rcases hbb with rfl | rfl
      · simp only [dists, List.set_cons_zero, List.map_cons, List.map_nil, hd.2 o ho]
        exact ((z _ (hd.1 m1 o h1 ho)).1).symm
      · simp only [dists, List.set_cons_succ, List.set_cons_zero, List.map_cons, List.map_nil, hd.2 o ho]
        exact ((z _ (hd.1 m0 o h0 ho)).2).symm
    · simp only [decide_eq_false hoc, Bool.false_eq_true, if_false]
      rcases hbb with rfl | rfl
      · simp only [if_true, dists, List.set_cons_zero, List.map_cons, List.map_nil, ratio_pair, ea, eb]
        split
        · rename_i hh
          split
          · rfl
          · rename_i hn
            rcases hh with hh | ⟨hh, -⟩
            · exact absurd hh hn
            · rw [(heq _ _).1 hh]
        · rename_i hh
          rw [if_neg (fun hlt => hh (Or.inl hlt))]
      · simp only [one_ne_zero, if_false, dists, List.set_cons_succ, List.set_cons_zero, List.map_cons,
          List.map_nil, ratio_pair, ea, eb]
        split
        · rename_i hh
          split
          · rename_i hn
            rcases hh with hh | ⟨hh, -⟩
            · exact absurd hh (not_lt.2 hn.le)
            · rw [(heq _ _).1 hh]
          · rfl
        · rename_i hh
          split
          · rfl
          · rename_i hn
            have : d m0 o = d c o := le_antisymm (not_lt.1 fun hlt => hh (Or.inl hlt)) (not_lt.1 hn)
            rw [this]
  · rintro rfl
    refine ⟨by simp, fun o ho hoc => ⟨_, hget o ho, ?_⟩⟩
    obtain ⟨r, -, ea, eb, eg⟩ := hg o ho
    rw [eg]
    unfold swapSample2
    simp only [decide_eq_false hoc, Bool.false_eq_true, if_false, if_true]
    split <;> exact ⟨rfl, eb⟩
  · rintro rfl
    refine ⟨by simp, fun o ho hoc => ⟨_, hget o ho, ?_⟩⟩
    obtain ⟨r, -, ea, eb, eg⟩ := hg o ho
    rw [eg]
    unfold swapSample2
    simp only [decide_eq_false hoc, Bool.false_eq_true, if_false, one_ne_zero]
    split <;> exact ⟨ea, rfl⟩
  · intro o ho
    obtain ⟨r, -, ea, eb, eg⟩ := hg o ho
    refine ⟨_, (if (g o).1.i1 = b then c else if b = 0 then m1 else m0), hget o ho, ?_⟩
    rw [eg]
    unfold swapSample2
    by_cases hoc : o = c
    · subst hoc
      simp only [decide_true, if_true, hd.2 o ho]
      rcases hbb with rfl | rfl
      · simp only [List.set_cons_zero, List.getElem?_cons_zero, true_and]
        intro m' hm'
        simp only [List.mem_cons, List.not_mem_nil, or_false] at hm'
        rcases hm' with rfl | rfl
        · rw [hd.2 _ ho]
        · exact hd.1 _ _ h1 ho
      · simp only [List.set_cons_succ, List.set_cons_zero, List.getElem?_cons_succ,
          List.getElem?_cons_zero, true_and]
        intro m' hm'
        simp only [List.mem_cons, List.not_mem_nil, or_false] at hm'
        rcases hm' with rfl | rfl
        · exact hd.1 _ _ h0 ho
        · rw [hd.2 _ ho]
    · simp only [decide_eq_false hoc, Bool.false_eq_true, if_false]
      rcases hbb with rfl | rfl
      · simp only [if_true, ea, eb]
        split
        · rename_i hh
          simp only [if_true, List.set_cons_zero, List.getElem?_cons_zero, true_and]
          intro m' hm'
          simp only [List.mem_cons, List.not_mem_nil, or_false] at hm'
          rcases hm' with rfl | rfl
          · exact le_refl _
          · rcases hh with hh | ⟨hh, -⟩
            · exact hh.le
            · exact le_of_eq ((heq _ _).1 hh)
        · rename_i hh
          simp only [one_ne_zero, if_false, List.set_cons_zero, List.getElem?_cons_succ,
            List.getElem?_cons_zero, true_and]
          intro m' hm'
          simp only [List.mem_cons, List.not_mem_nil, or_false] at hm'
          rcases hm' with rfl | rfl
          · exact not_lt.1 fun hlt => hh (Or.inl hlt)
          · exact le_refl _
      · simp only [one_ne_zero, if_false, ea, eb]
        split
        · rename_i hh
          simp only [if_true, List.set_cons_succ, List.set_cons_zero, List.getElem?_cons_succ,
            List.getElem?_cons_zero, true_and]
          intro m' hm'
          simp only [List.mem_cons, List.not_mem_nil, or_false] at hm'
          rcases hm' with rfl | rfl
          · rcases hh with hh | ⟨hh, -⟩
            · exact hh.le
            · exact le_of_eq ((heq _ _).1 hh)
          · exact le_refl _
        · rename_i hh
          simp only [zero_ne_one, if_false, List.set_cons_succ, List.set_cons_zero,
            List.getElem?_cons_zero, true_and]
          intro m' hm'
          simp only [List.mem_cons, List.not_mem_nil, or_false] at hm'
          rcases hm' with rfl | rfl
          · exact le_refl _
          · exact not_lt.1 fun hlt => hh (Or.inl hlt)

end

/-! ### Examples and counterexamples -/

theorem noTies_of_nodup {l : List ℚ} (h : l.Nodup) : NoTies eqQ l := by
  intro i j x y hij hx hy
  have hxy : x ≠ y := by
    intro e
    have hi := lt_of_some hx
    exact hij ((List.getElem?_inj hi h).1 (hx.trans (by rw [e, ← hy])))
  exact ⟨hxy, by simpa [eqQ] using hxy⟩

theorem lineQ_table (xs : List ℚ) (n : Nat) : IsTable (lineQ xs) n :=
  ⟨fun i o _ _ => abs_nonneg _, fun i _ => by simp [lineQ]⟩

/-- Six points on a line and three medoids: the hypotheses of `C50_swap_gain` hold. -/
example : ∃ s, mscInit 1000 eqQ (lineQ [0, 1, 5, 13, 20, 29]) 6 [0, 3, 5] = some s ∧
    BufOK3 (division eqQ) (lineQ [0, 1, 5, 13, 20, 29]) 6 s := by
  obtain ⟨s, e, -, h⟩ := C50_start (1000 : ℚ) eqQ (lineQ [0, 1, 5, 13, 20, 29]) 6 [0, 3, 5]
    (by decide) (by decide +kernel)
    (fun o ho => noTies_of_nodup ((by decide +kernel : ∀ o < 6,
      (dists (lineQ [0, 1, 5, 13, 20, 29]) [0, 3, 5] o).Nodup) o ho))
  exact ⟨s, e, h⟩

/-- In this example the best exchange with sample 4 is at position 1 and the gain is the difference of the
two sums. -/
example :
    let d := lineQ [0, 1, 5, 13, 20, 29]
    ((mscInit 1000 eqQ d 6 [0, 3, 5]).bind fun s => findBestSwap3 (division eqQ) d 6 s 4).isSome ∧
      (mscInit 1000 eqQ d 6 [0, 3, 5]).bind (fun s => findBestSwap3 (division eqQ) d 6 s 4) =
        some (ms (division eqQ) d 6 [0, 3, 5] - ms (division eqQ) d 6 [0, 4, 5], 1) := by
  decide +kernel

/-- The condition on the third positions of `C51_swap_buffers_partial` and `C71_exchange_partial` holds
for these medoids and every candidate, and candidate 4 is accepted. -/
example :
    let d := lineQ [0, 1, 5, 13, 20, 29]
    (mscInit 1000 eqQ d 6 [3, 0, 5]).map (fun s => s.buf.map (·.i3)) = some [2, 2, 2, 2, 1, 1] ∧
    ((mscInit 1000 eqQ d 6 [3, 0, 5]).bind fun s => tryCandidate3 eqQ d 6 s 4).map
      (fun s => (s.medoids, s.loss)) = some ([4, 0, 5], 685 / 741) := by
  decide +kernel

/-- **C51** is false when the third nearest medoid is at position 0: `index_third` is compared with
`common::infinity<std::size_t>()`, which is 0.  Four points on a line, no sample at the same distance
from two medoids.  One exchange is made, and afterwards the second distance cached for sample 1 is 7,
although the medoid at position 0 is at distance 5; the reported loss is 1/7, the sum of the ratios
is 1/5. -/
theorem C51_counterexample :
    let d := lineQ [9, 14, 7, 13]
    (∀ o < 4, (dists d [0, 1, 3] o).Nodup) ∧
    ((mscInit 1000 eqQ d 4 [0, 1, 3]).bind (mscStep eqQ d 4)).map
      (fun s => (s.medoids, s.buf[1]?, s.loss)) = some ([0, 2, 3], some ⟨2, 1, 1, 7, 0, 5⟩, 1 / 7) ∧
    dists d [0, 2, 3] 1 = [5, 7, 1] ∧ ms (division eqQ) d 4 [0, 2, 3] = 1 / 5 := by
  decide +kernel

/-- **C70** is false: before any exchange the reported total deviation is not the sum of the ratios, it
is the sum of the distances. -/
theorem C70_counterexample :
    let d := lineQ [9, 14, 7, 13]
    (mscInit 1000 eqQ d 4 [0, 1, 3]).map (fun s => s.loss) = some 2 ∧
      ms (division eqQ) d 4 [0, 1, 3] = 1 / 3 := by
  decide +kernel

/-- **C71** is false, three medoids: a step makes two exchanges, the second one on wrong buffers, and the
sum of the ratios goes from 3/5 to 2/3. -/
theorem C71_worse_counterexample :
    let d := lineQ [12, 3, 8, 6]
    (∀ o < 4, (dists d [3, 0, 2] o).Nodup) ∧
    ((mscInit 1000 eqQ d 4 [3, 0, 2]).bind (mscStep eqQ d 4)).map (fun s => s.medoids) =
      some [3, 2, 1] ∧
    ms (division eqQ) d 4 [3, 0, 2] = 3 / 5 ∧ ms (division eqQ) d 4 [3, 2, 1] = 2 / 3 := by
  decide +kernel

/-- **C71** is false, medoids do not stay distinct: sample 3 is the medoid at position 2, the guard of
the step compares the sample with the position, so sample 3 is tried and also put at position 1. -/
theorem C71_duplicate_counterexample :
    let d := lineQ [5, 3, 2, 11]
    (∀ o < 4, (dists d [1, 2, 3] o).Nodup) ∧
    ((mscInit 1000 eqQ d 4 [1, 2, 3]).bind (mscStep eqQ d 4)).map (fun s => s.medoids) =
      some [1, 3, 3] := by
  decide +kernel

/-- **C71** is false, two medoids: the constructor stores the nearest distance first, the exchange reads
the distance to the medoid at position 0 first.  One exchange is made, it raises the sum of the ratios
from 36/55 to 47/66, and the reported loss is 1/6. -/
theorem C71_two_medoids_counterexample :
    let d := lineQ [6, 11, 0, 5]
    (∀ o < 4, (dists d [3, 1] o).Nodup) ∧
    ((mscInit 1000 eqQ d 4 [3, 1]).bind (mscStep eqQ d 4)).map (fun s => (s.medoids, s.loss)) =
      some ([3, 2], 1 / 6) ∧
    ms (division eqQ) d 4 [3, 1] = 36 / 55 ∧ ms (division eqQ) d 4 [3, 2] = 47 / 66 := by
  decide +kernel

/-- After an exchange of two medoids by `swap_buffers_k2` both distances of the new medoid are 0. -/
theorem C51_two_medoids_counterexample :
    let d := lineQ [0, 4, 10]
    let buf : List (Rec3 ℚ) := [⟨0, 0, 0, 10, 0, 0⟩, ⟨0, 4, 0, 6, 0, 0⟩, ⟨1, 10, 0, 0, 0, 0⟩]
    ((swapBuffers2 eqQ (division eqQ) d 3 buf 1 0).map fun p => p.1[1]?) =
      some (some ⟨0, 0, 0, 0, 0, 0⟩) ∧ d 2 1 = 6 := by
  decide +kernel

/-- These buffers are stored by position for the medoids 0 and 2. -/
example : ByPosition (lineQ [0, 4, 10]) 3 0 2
    [⟨0, 0, 0, 10, 0, 0⟩, ⟨0, 4, 0, 6, 0, 0⟩, ⟨1, 10, 0, 0, 0, 0⟩] (fun _ => False) := by
  refine ⟨rfl, fun o ho _ => ?_⟩
  rcases (by omega : o = 0 ∨ o = 1 ∨ o = 2) with rfl | rfl | rfl
  · exact ⟨_, rfl, by decide +kernel, by decide +kernel⟩
  · exact ⟨_, rfl, by decide +kernel, by decide +kernel⟩
  · exact ⟨_, rfl, by decide +kernel, by decide +kernel⟩

end Verif.KMedoids
