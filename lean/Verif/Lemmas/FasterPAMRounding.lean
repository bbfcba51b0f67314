import Verif.Model.FasterPAMRounding
import Verif.Lemmas.FasterPAM
import Verif.Lemmas.CondensedRounding

/-
FasterPAM with rounded arithmetic: errors of the losses and the gains, and the buffers.
-/

namespace Verif.KMedoids

open Spec Verif.Dendrogram

section

variable {fl : ℝ → ℝ} {u : ℝ}

/-- What is needed of the rounding: a relative error. -/
def RelErr (u : ℝ) (fl : ℝ → ℝ) : Prop := 0 ≤ u ∧ ∀ x, |fl x - x| ≤ u * |x|

theorem RelErr.round (H : RelErr u fl) {j : Nat} {A y x : ℝ} (h : Near u j A y x) :
    Near u (j + 1) A (fl y) x := by
  refine h.round (w := 0) (M := (1 + u) ^ j * A) H.1 ?_ ((abs_nonneg x).trans h.2) (le_refl _)
  intro z _
  rw [max_eq_left (abs_nonneg z)]
  exact H.2 z

theorem near_self {A x : ℝ} (h : |x| ≤ A) : Near u 0 A x x := ⟨by simp, h⟩

/-- `acc += t` with `t` a rounded difference. -/
theorem RelErr.add (H : RelErr u fl) {j : Nat} (hj : 1 ≤ j) {A y x t : ℝ} (h : Near u j A y x) :
    Near u (j + 1) (A + |t|) (fl (y + fl t)) (x + t) :=
  H.round (h.add ((H.round (near_self (le_refl |t|))).mono H.1 (by omega) (le_refl _)))

theorem RelErr.sign_pos (H : RelErr u fl) (hu : u ≤ 1) {x : ℝ} (hx : 0 ≤ x) : 0 ≤ fl x := by
  have := H.2 x
  rw [abs_of_nonneg hx, abs_le] at this
  nlinarith

theorem addAtR_spec (l : List ℝ) (i : Nat) (v : ℝ) (hi : i < l.length) :
    ∃ l', addAtR fl l i v = some l' ∧ l'.length = l.length ∧
      ∀ j, l'.getD j 0 = if j = i then fl (l.getD j 0 + v) else l.getD j 0 := by
  refine ⟨l.set i (fl (l[i] + v)), ?_, by simp, ?_⟩
  · simp only [addAtR, List.getElem?_eq_getElem hi, Option.bind_eq_bind, Option.bind_some]
  · intro j
    rw [List.getD_eq_getElem?_getD, List.getD_eq_getElem?_getD, List.getElem?_set]
    by_cases h : j = i
    · subst h
      simp [hi]
    · rw [if_neg (Ne.symm h), if_neg h]

/-- One update of a vector of sums. -/
theorem addAtR_near (H : RelErr u fl) {l : List ℝ} {i m : Nat} (hm : 1 ≤ m) {t : ℝ} (hi : i < l.length)
    {X A : Nat → ℝ} (h : ∀ j, Near u m (A j) (l.getD j 0) (X j)) :
    ∃ l', addAtR fl l i (fl t) = some l' ∧ l'.length = l.length ∧
      ∀ j, Near u (m + 1) (A j + if j = i then |t| else 0) (l'.getD j 0) (X j + if j = i then t else 0) := by
  obtain ⟨l', e, hl, g⟩ := addAtR_spec (fl := fl) l i (fl t) hi
  refine ⟨l', e, hl, fun j => ?_⟩
  rw [g]
  split
  · exact H.add hm (h j)
  · rw [add_zero, add_zero]
    exact (h j).mono H.1 (by omega) (le_refl _)

theorem removalLoopR_near (H : RelErr u fl) (rs : List (Rec ℝ)) :
    ∀ (acc : List ℝ) (m : Nat) (X A : Nat → ℝ), 1 ≤ m → (∀ r ∈ rs, r.i1 < acc.length) →
      (∀ j, Near u m (A j) (acc.getD j 0) (X j)) →
      ∃ acc', removalLoopR fl rs acc = some acc' ∧ acc'.length = acc.length ∧
        ∀ j, Near u (m + rs.length) (A j + (rs.map fun r => if j = r.i1 then |r.d2 - r.d1| else 0).sum)
          (acc'.getD j 0) (X j + (rs.map fun r => if j = r.i1 then r.d2 - r.d1 else 0).sum) := by
  induction rs with
  | nil => intro acc m X A _ _ h; exact ⟨acc, rfl, rfl, by simpa using h⟩
  | cons r rs ih =>
    intro acc m X A hm hi h
    obtain ⟨a1, e1, l1, g1⟩ := addAtR_near H (t := r.d2 - r.d1) hm (hi r (by simp)) h
    obtain ⟨a2, e2, l2, g2⟩ := ih a1 (m + 1) _ _ (by omega)
      (fun q hq => by rw [l1]; exact hi q (by simp [hq])) g1
    refine ⟨a2, by simp only [removalLoopR, e1, Option.bind_eq_bind, Option.bind_some, e2],
      by omega, fun j => ?_⟩
    have := g2 j
    rw [List.map_cons, List.sum_cons, List.map_cons, List.sum_cons, ← add_assoc, ← add_assoc,
      List.length_cons, show m + (rs.length + 1) = m + 1 + rs.length by omega]
    exact this

/-- What sample `o` adds to `delta_td_mi[j]`. -/
noncomputable def miTerm (d : Nat → Nat → ℝ) (buf : List (Rec ℝ)) (c j o : Nat) : ℝ :=
  let r := (buf[o]?).getD ⟨0, 0, 0, 0⟩
  if j = r.i1 then (if d c o < r.d1 then r.d1 - r.d2 else if d c o < r.d2 then d c o - r.d2 else 0) else 0

/-- What sample `o` adds to `delta_td_xc`. -/
noncomputable def xcTerm (d : Nat → Nat → ℝ) (buf : List (Rec ℝ)) (c o : Nat) : ℝ :=
  let r := (buf[o]?).getD ⟨0, 0, 0, 0⟩
  if d c o < r.d1 then d c o - r.d1 else 0

theorem swapGainLoopR_near (H : RelErr u fl) (d : Nat → Nat → ℝ) (buf : List (Rec ℝ)) (c k : Nat)
    (os : List Nat) : ∀ (mi : List ℝ) (xc : ℝ) (m : Nat) (X A : Nat → ℝ) (Y B : ℝ), 1 ≤ m →
      mi.length = k → (∀ o ∈ os, ∃ r, buf[o]? = some r ∧ r.i1 < k) →
      (∀ j, Near u m (A j) (mi.getD j 0) (X j)) → Near u m B xc Y →
      ∃ mi' xc', swapGainLoopR fl d buf c os mi xc = some (mi', xc') ∧ mi'.length = k ∧
        (∀ j, Near u (m + os.length) (A j + (os.map fun o => |miTerm d buf c j o|).sum) (mi'.getD j 0)
          (X j + (os.map (miTerm d buf c j)).sum)) ∧
        Near u (m + os.length) (B + (os.map fun o => |xcTerm d buf c o|).sum) xc'
          (Y + (os.map (xcTerm d buf c)).sum) := by
  induction os with
  | nil =>
    intro mi xc m X A Y B _ hk _ h h'
    exact ⟨mi, xc, rfl, hk, by simpa using h, by simpa using h'⟩
  | cons o os ih =>
    intro mi xc m X A Y B hm hk hb h h'
    obtain ⟨r, er, hr⟩ := hb o (by simp)
    have ho : ∀ q ∈ os, ∃ r, buf[q]? = some r ∧ r.i1 < k := fun q hq => hb q (by simp [hq])
    have key : ∃ mi1 xc1, swapGainLoopR fl d buf c (o :: os) mi xc = swapGainLoopR fl d buf c os mi1 xc1 ∧
        mi1.length = k ∧
        (∀ j, Near u (m + 1) (A j + |miTerm d buf c j o|) (mi1.getD j 0) (X j + miTerm d buf c j o)) ∧
        Near u (m + 1) (B + |xcTerm d buf c o|) xc1 (Y + xcTerm d buf c o) := by
      have keep : ∀ {A y x : ℝ}, Near u m A y x → Near u (m + 1) (A + |(0 : ℝ)|) y (x + 0) := by
        intro A y x h
        rw [abs_zero, add_zero, add_zero]
        exact h.mono H.1 (by omega) (le_refl _)
      have e0 : ∀ t : ℝ, (∀ j, miTerm d buf c j o = if j = r.i1 then t else 0) → ∀ j,
          |miTerm d buf c j o| = if j = r.i1 then |t| else 0 := by
        intro t ht j
        rw [ht]
        split <;> simp
      by_cases h1 : d c o < r.d1
      · obtain ⟨a1, e1, l1, g1⟩ := addAtR_near H (t := r.d1 - r.d2) (i := r.i1) hm (by omega) h
        have em : ∀ j, miTerm d buf c j o = if j = r.i1 then r.d1 - r.d2 else 0 := by
          intro j; simp only [miTerm, er, Option.getD_some, if_pos h1]
        have ex : xcTerm d buf c o = d c o - r.d1 := by
          simp only [xcTerm, er, Option.getD_some, if_pos h1]
        refine ⟨a1, fl (xc + fl (d c o - r.d1)), ?_, by omega, fun j => ?_, ?_⟩
        · simp only [swapGainLoopR, er, Option.bind_eq_bind, Option.bind_some, if_pos h1, e1]
        · rw [e0 _ em, em]; exact g1 j
        · rw [ex]; exact H.add hm h'
      · have ex : xcTerm d buf c o = 0 := by
          simp only [xcTerm, er, Option.getD_some, if_neg h1]
        by_cases h2 : d c o < r.d2
        · obtain ⟨a1, e1, l1, g1⟩ := addAtR_near H (t := d c o - r.d2) (i := r.i1) hm (by omega) h
          have em : ∀ j, miTerm d buf c j o = if j = r.i1 then d c o - r.d2 else 0 := by
            intro j; simp only [miTerm, er, Option.getD_some, if_neg h1, if_pos h2]
          refine ⟨a1, xc, ?_, by omega, fun j => ?_, ?_⟩
          · simp only [swapGainLoopR, er, Option.bind_eq_bind, Option.bind_some, if_neg h1, if_pos h2, e1]
          · rw [e0 _ em, em]; exact g1 j
          · rw [ex]; exact keep h'
        · have em : ∀ j, miTerm d buf c j o = 0 := by
            intro j; simp only [miTerm, er, Option.getD_some, if_neg h1, if_neg h2, ite_self]
          refine ⟨mi, xc, ?_, hk, fun j => ?_, ?_⟩
          · simp only [swapGainLoopR, er, Option.bind_eq_bind, Option.bind_some, if_neg h1, if_neg h2]
          · rw [em]; exact keep (h j)
          · rw [ex]; exact keep h'
    obtain ⟨mi1, xc1, e1, l1, g1, g1'⟩ := key
    obtain ⟨mi2, xc2, e2, l2, g2, g2'⟩ := ih mi1 xc1 (m + 1) _ _ _ _ (by omega) l1 ho g1 g1'
    refine ⟨mi2, xc2, by rw [e1, e2], l2, fun j => ?_, ?_⟩
    · have := g2 j
      rw [List.map_cons, List.sum_cons, List.map_cons, List.sum_cons, ← add_assoc, ← add_assoc,
        List.length_cons, show m + (os.length + 1) = m + 1 + os.length by omega]
      exact this
    · rw [List.map_cons, List.sum_cons, List.map_cons, List.sum_cons, ← add_assoc, ← add_assoc,
        List.length_cons, show m + (os.length + 1) = m + 1 + os.length by omega]
      exact g2'

/-! ### The state -/

/-- The buffers of the rounded run: the positions and distances are right for the numbers `d`, the
removal losses are those computed from them, the loss is the total deviation up to rounding. -/
structure BufR (fl : ℝ → ℝ) (u : ℝ) (d : Nat → Nat → ℝ) (n : Nat) (s : PState ℝ) : Prop where
  two : 2 ≤ s.medoids.length
  len : s.buf.length = n
  recs : ∀ (o : Nat) (r : Rec ℝ), s.buf[o]? = some r → FirstTwo (dists d s.medoids o) r
  rem : removalR fl s.medoids.length s.buf = some s.removal
  loss : Near u n (td d n s.medoids) s.loss (td d n s.medoids)

theorem recAtR {d : Nat → Nat → ℝ} {n : Nat} {s : PState ℝ} (h : BufR fl u d n s) (o : Nat) (ho : o < n) :
    ∃ r, s.buf[o]? = some r ∧ FirstTwo (dists d s.medoids o) r ∧ r.i1 < s.medoids.length ∧
      r.i2 < s.medoids.length := by
  have ho' : o < s.buf.length := by rw [h.len]; exact ho
  refine ⟨s.buf[o], List.getElem?_eq_getElem ho', h.recs _ _ (List.getElem?_eq_getElem ho'), ?_, ?_⟩
  · have := lt_of_some (h.recs _ _ (List.getElem?_eq_getElem ho')).1.2.1
    simpa [dists] using this
  · have := lt_of_some (h.recs _ _ (List.getElem?_eq_getElem ho')).2.2.1
    simpa [dists] using this

/-- The computed changes of `find_best_swap`: one sum and vector of sums whose totals are the changes of the
total deviation up to rounding. -/
theorem gains_near (H : RelErr u fl) {d : Nat → Nat → ℝ} {n : Nat} {s : PState ℝ} (hd : IsTable d n)
    {D : ℝ} (hD : ∀ i o, i < n → o < n → d i o ≤ D) (hms : ∀ m ∈ s.medoids, m < n)
    (h : BufR fl u d n s) (c : Nat) (hc : c < n) :
    ∃ mi xc, swapGainLoopR fl d s.buf c (List.range n) s.removal 0 = some (mi, xc) ∧
      mi.length = s.medoids.length ∧ ∀ j, j < s.medoids.length →
        Near u (2 * n + 2) (2 * n * D) (fl (xc + mi.getD j 0))
          (td d n (s.medoids.set j c) - td d n s.medoids) := by
  have hrem := h.rem
  obtain ⟨rem, e0, l0, g0⟩ := removalLoopR_near H s.buf (List.replicate s.medoids.length (0 : ℝ)) 1
    (fun _ => 0) (fun _ => 0) (le_refl _) (by
      intro r hr
      obtain ⟨o, ho, rfl⟩ := List.mem_iff_getElem.1 hr
      have := lt_of_some (h.recs _ _ (List.getElem?_eq_getElem ho)).1.2.1
      simpa [dists] using this) (by
      intro j
      have : (List.replicate s.medoids.length (0 : ℝ)).getD j 0 = 0 := by
        rw [List.getD_eq_getElem?_getD, List.getElem?_replicate]
        split <;> rfl
      rw [this]
      exact ⟨by simp, by simp⟩)
  rw [removalR, e0, Option.some.injEq] at hrem
  rw [List.length_replicate] at l0
  obtain ⟨mi, xc, e1, l1, g1, g1'⟩ := swapGainLoopR_near H d s.buf c s.medoids.length (List.range n)
    s.removal 0 (1 + s.buf.length) _ _ 0 0 (by omega) (by rw [← hrem]; exact l0) (fun o ho => by
      obtain ⟨r, e, hr, hi, -⟩ := recAtR h o (List.mem_range.1 ho)
      exact ⟨r, e, hi⟩) (by rw [← hrem]; exact g0) ⟨by simp, by simp⟩
  refine ⟨mi, xc, e1, l1, fun j hj => ?_⟩
  have hsum := H.round (g1'.add (g1 j))
  rw [List.length_range, h.len] at hsum
  simp only [zero_add] at hsum
  have hper : ∀ o ∈ List.range n, ∃ r, s.buf[o]? = some r ∧ FirstTwo (dists d s.medoids o) r ∧
      0 ≤ r.d1 ∧ r.d1 ≤ r.d2 ∧ r.d2 ≤ D ∧ 0 ≤ d c o := by
    intro o ho
    have ho' := List.mem_range.1 ho
    obtain ⟨r, er, hr, -, -⟩ := recAtR h o ho'
    have hmem : ∀ (i : Nat) (x : ℝ), (dists d s.medoids o)[i]? = some x → 0 ≤ x ∧ x ≤ D := by
      intro i x hx
      have := List.mem_of_getElem? hx
      simp only [dists, List.mem_map] at this
      obtain ⟨q, hq, rfl⟩ := this
      exact ⟨hd.1 _ _ (hms q hq) ho', hD _ _ (hms q hq) ho'⟩
    exact ⟨r, er, hr, (hmem _ _ hr.1.2.1).1, hr.le, (hmem _ _ hr.2.2.1).2, hd.1 _ _ hc ho'⟩
  have key : td d n (s.medoids.set j c) - td d n s.medoids = ((List.range n).map (xcTerm d s.buf c)).sum +
      ((s.buf.map fun r => if j = r.i1 then r.d2 - r.d1 else 0).sum +
        ((List.range n).map (miTerm d s.buf c j)).sum) := by
    rw [td_of_recs h.len h.recs]
    conv_rhs => rw [buf_eq s.buf n h.len, List.map_map]
    rw [← buf_eq s.buf n h.len, ← sum_add_map, ← sum_add_map, td, ← sum_sub_map]
    congr 1
    apply List.map_congr_left
    intro o ho
    obtain ⟨r, er, hr, h1, h2, h3, h4⟩ := hper o ho
    have hjl : j < (dists d s.medoids o).length := by simpa [dists] using hj
    rw [dists_set, min_set hr j hjl, Option.getD_some]
    simp only [Function.comp, miTerm, xcTerm, er, Option.getD_some]
    by_cases a1 : d c o < r.d1
    · rw [if_pos a1, if_pos a1, min_eq_right a1.le, min_eq_right (a1.le.trans h2)]
      split <;> ring
    · rw [if_neg a1, if_neg a1, min_eq_left (not_lt.1 a1)]
      by_cases a2 : d c o < r.d2
      · rw [if_pos a2, min_eq_right a2.le]
        split <;> ring
      · rw [if_neg a2, min_eq_left (not_lt.1 a2)]
        split <;> ring
  have bound : ((List.range n).map fun o => |xcTerm d s.buf c o|).sum +
      ((s.buf.map fun r => if j = r.i1 then |r.d2 - r.d1| else 0).sum +
        ((List.range n).map fun o => |miTerm d s.buf c j o|).sum) ≤ 2 * n * D := by
    conv_lhs => rw [buf_eq s.buf n h.len, List.map_map]
    rw [← buf_eq s.buf n h.len, ← sum_add_map, ← sum_add_map]
    have : ((List.range n).map fun _ => 2 * D).sum = 2 * n * D := by
      rw [List.map_const', List.sum_replicate, List.length_range, nsmul_eq_mul]
      ring
    rw [← this]
    apply List.sum_le_sum
    intro o ho
    obtain ⟨r, er, hr, h1, h2, h3, h4⟩ := hper o ho
    simp only [Function.comp, miTerm, xcTerm, er, Option.getD_some]
    by_cases a1 : d c o < r.d1
    · rw [if_pos a1, if_pos a1, abs_of_nonpos (by linarith : d c o - r.d1 ≤ 0)]
      split
      · rw [abs_of_nonneg (by linarith), abs_of_nonpos (by linarith)]
        linarith
      · rw [abs_zero]
        linarith
    · rw [if_neg a1, if_neg a1, abs_zero]
      have a1 := not_lt.1 a1
      by_cases a2 : d c o < r.d2
      · rw [if_pos a2]
        split
        · rw [abs_of_nonneg (by linarith), abs_of_nonpos (by linarith)]
          linarith
        · rw [abs_zero]
          linarith
      · rw [if_neg a2]
        split
        · rw [abs_of_nonneg (by linarith), abs_zero]
          linarith
        · rw [abs_zero]
          linarith
  rw [key]
  exact hsum.mono H.1 (by omega) bound

/-! ### Exchanging a medoid -/

theorem lossLoopR_near (H : RelErr u fl) (buf : List (Rec ℝ)) (c : Nat) (os : List Nat) :
    ∀ (acc : ℝ) (m : Nat) (X A : ℝ), (∀ o ∈ os, ∃ r, buf[o]? = some r ∧ 0 ≤ r.d1 ∧ (o = c → r.d1 = 0)) →
      Near u m A acc X →
      ∃ v, lossLoopR fl buf c os acc = some v ∧
        Near u (m + os.length) (A + (os.map fun o => ((buf[o]?).getD ⟨0, 0, 0, 0⟩).d1).sum) v
          (X + (os.map fun o => ((buf[o]?).getD ⟨0, 0, 0, 0⟩).d1).sum) := by
  induction os with
  | nil => intro acc m X A _ h; exact ⟨acc, rfl, by simpa using h⟩
  | cons o os ih =>
    intro acc m X A hb h
    obtain ⟨r, er, hr, hrc⟩ := hb o (by simp)
    have hb' : ∀ q ∈ os, ∃ r, buf[q]? = some r ∧ 0 ≤ r.d1 ∧ (q = c → r.d1 = 0) :=
      fun q hq => hb q (by simp [hq])
    rw [List.map_cons, List.sum_cons, ← add_assoc, ← add_assoc, List.length_cons,
      show m + (os.length + 1) = m + 1 + os.length by omega]
    simp only [er, Option.getD_some]
    by_cases ho : o = c
    · rw [lossLoopR, if_pos ho, hrc ho, add_zero, add_zero]
      exact ih acc (m + 1) X A hb' (h.mono H.1 (by omega) (le_refl _))
    · rw [lossLoopR, if_neg ho, er]
      simp only [Option.bind_eq_bind, Option.bind_some]
      refine ih _ (m + 1) (X + r.d1) (A + r.d1) hb' (H.round (h.add ?_))
      exact (near_self (le_of_eq (abs_of_nonneg hr))).mono H.1 (by omega) (le_refl _)

theorem swapBuffersR_spec (H : RelErr u fl) {d : Nat → Nat → ℝ} {n : Nat} {ms : List Nat}
    {buf : List (Rec ℝ)} (hd : IsTable d n) (hms : ∀ m ∈ ms, m < n) (hl : buf.length = n)
    (h : ∀ (o : Nat) (r : Rec ℝ), buf[o]? = some r → FirstTwo (dists d ms o) r)
    (c b : Nat) (hc : c < n) (hb : b < ms.length) :
    ∃ buf' v, swapBuffersR fl d n (ms.set b c) buf c b = some (buf', v) ∧ buf'.length = n ∧
      (∀ (o : Nat) (r : Rec ℝ), buf'[o]? = some r → FirstTwo (dists d (ms.set b c) o) r) ∧
      Near u n (td d n (ms.set b c)) v (td d n (ms.set b c)) := by
  obtain ⟨buf', e, hl', hr'⟩ := swapBuffers_spec hd hms hl h c b hc hb
  unfold swapBuffers at e
  rw [Option.bind_eq_bind, Option.bind_eq_some_iff] at e
  obtain ⟨buf1, e1, e2⟩ := e
  rw [Option.bind_eq_bind, Option.bind_eq_some_iff] at e2
  obtain ⟨v1, -, e3⟩ := e2
  rw [Option.some.injEq, Prod.mk.injEq] at e3
  obtain ⟨rfl, -⟩ := e3
  have hms' : ∀ m ∈ ms.set b c, m < n := by
    intro m hm
    rcases List.mem_or_eq_of_mem_set hm with h' | rfl
    · exact hms m h'
    · exact hc
  obtain ⟨v, e4, g4⟩ := lossLoopR_near H buf1 c (List.range n) 0 0 0 0 (by
    intro o ho
    have ho' : o < buf1.length := by rw [hl']; exact List.mem_range.1 ho
    have hr := hr' o _ (List.getElem?_eq_getElem ho')
    refine ⟨_, List.getElem?_eq_getElem ho', ?_, ?_⟩
    · have := List.mem_of_getElem? hr.1.2.1
      simp only [dists, List.mem_map] at this
      obtain ⟨q, hq, e⟩ := this
      rw [← e]
      exact hd.1 _ _ (hms' q hq) (List.mem_range.1 ho)
    · rintro rfl
      have h0 := List.mem_of_getElem? hr.1.2.1
      simp only [dists, List.mem_map] at h0
      obtain ⟨q, hq, e⟩ := h0
      have hge : 0 ≤ buf1[o].d1 := by rw [← e]; exact hd.1 _ _ (hms' q hq) hc
      have hle : buf1[o].d1 ≤ 0 := by
        refine hr.1.2.2 b 0 (by simp) ?_
        rw [dists, List.getElem?_map, List.getElem?_set_self hb, Option.map_some, hd.2 _ hc]
      linarith) ⟨by simp, by simp⟩
  refine ⟨buf1, v, ?_, hl', hr', ?_⟩
  · unfold swapBuffersR
    rw [Option.bind_eq_bind, Option.bind_eq_some_iff]
    refine ⟨buf1, e1, ?_⟩
    rw [e4]
    rfl
  · rw [td_of_recs hl' hr']
    simpa using g4

theorem removalR_some (H : RelErr u fl) {ms : List Nat} {d : Nat → Nat → ℝ} {buf : List (Rec ℝ)}
    (h : ∀ (o : Nat) (r : Rec ℝ), buf[o]? = some r → FirstTwo (dists d ms o) r) :
    ∃ rem, removalR fl ms.length buf = some rem := by
  obtain ⟨rem, e0, -⟩ := removalLoopR_near H buf (List.replicate ms.length (0 : ℝ)) 1
    (fun _ => 0) (fun _ => 0) (le_refl _) (by
      intro r hr
      obtain ⟨o, ho, rfl⟩ := List.mem_iff_getElem.1 hr
      have := lt_of_some (h _ _ (List.getElem?_eq_getElem ho)).1.2.1
      simpa [dists] using this) (by
      intro j
      have : (List.replicate ms.length (0 : ℝ)).getD j 0 = 0 := by
        rw [List.getD_eq_getElem?_getD, List.getElem?_replicate]
        split <;> rfl
      rw [this]
      exact ⟨by simp, by simp⟩)
  exact ⟨rem, e0⟩

/-! ### A candidate that is a medoid -/

theorem removalLoopR_nonneg (H : RelErr u fl) (hu : u ≤ 1) (rs : List (Rec ℝ)) : ∀ acc acc' : List ℝ,
    (∀ r ∈ rs, r.d1 ≤ r.d2) → (∀ j, 0 ≤ acc.getD j 0) → removalLoopR fl rs acc = some acc' →
    ∀ j, 0 ≤ acc'.getD j 0 := by
  induction rs with
  | nil =>
    intro acc acc' _ h e
    simp only [removalLoopR, Option.some.injEq] at e
    exact e ▸ h
  | cons r rs ih =>
    intro acc acc' hr h e
    simp only [removalLoopR, Option.bind_eq_bind, Option.bind_eq_some_iff] at e
    obtain ⟨a1, e1, e2⟩ := e
    refine ih a1 acc' (fun q hq => hr q (by simp [hq])) ?_ e2
    have hi : r.i1 < acc.length := by
      by_contra hn
      simp [addAtR, List.getElem?_eq_none (not_lt.1 hn)] at e1
    obtain ⟨a2, e2, -, g2⟩ := addAtR_spec (fl := fl) acc r.i1 (fl (r.d2 - r.d1)) hi
    rw [e1, Option.some.injEq] at e2
    subst e2
    intro j
    rw [g2]
    split
    · exact H.sign_pos hu (add_nonneg (h j) (H.sign_pos hu (sub_nonneg.2 (hr r (by simp)))))
    · exact h j

/-- A candidate that is the medoid at position `q` changes only the entry of `q`. -/
theorem swapGainLoopR_medoid (d : Nat → Nat → ℝ) (buf : List (Rec ℝ)) (c q : Nat) (os : List Nat) :
    ∀ (mi mi' : List ℝ) (xc xc' : ℝ),
      (∀ o ∈ os, ∀ r, buf[o]? = some r → r.d1 ≤ d c o ∧ (r.i1 ≠ q → r.d2 ≤ d c o)) →
      swapGainLoopR fl d buf c os mi xc = some (mi', xc') →
      xc' = xc ∧ ∀ j, j ≠ q → mi'.getD j 0 = mi.getD j 0 := by
  induction os with
  | nil =>
    intro mi mi' xc xc' _ e
    simp only [swapGainLoopR, Option.some.injEq, Prod.mk.injEq] at e
    obtain ⟨rfl, rfl⟩ := e
    exact ⟨rfl, fun _ _ => rfl⟩
  | cons o os ih =>
    intro mi mi' xc xc' h e
    simp only [swapGainLoopR, Option.bind_eq_bind, Option.bind_eq_some_iff] at e
    obtain ⟨r, er, e⟩ := e
    have hr := h o (by simp) r er
    have h' : ∀ p ∈ os, ∀ r, buf[p]? = some r → r.d1 ≤ d c p ∧ (r.i1 ≠ q → r.d2 ≤ d c p) :=
      fun p hp => h p (by simp [hp])
    rw [if_neg (not_lt.2 hr.1)] at e
    by_cases h2 : d c o < r.d2
    · rw [if_pos h2, Option.bind_eq_some_iff] at e
      obtain ⟨a1, e1, e2⟩ := e
      obtain ⟨g, g'⟩ := ih _ _ _ _ h' e2
      refine ⟨g, fun j hj => ?_⟩
      have hq : r.i1 = q := by
        by_contra hn
        exact absurd h2 (not_lt.2 (hr.2 hn))
      have hi : r.i1 < mi.length := by
        by_contra hn
        simp [addAtR, List.getElem?_eq_none (not_lt.1 hn)] at e1
      obtain ⟨a2, e2, -, g2⟩ := addAtR_spec (fl := fl) mi r.i1 (fl (d c o - r.d2)) hi
      rw [e1, Option.some.injEq] at e2
      subst e2
      rw [g' j hj, g2, if_neg (by rw [hq]; exact hj)]
    · rw [if_neg h2] at e
      exact ih _ _ _ _ h' e

/-! ### One candidate -/

/-- How far the computed change of the total deviation may be from the change. -/
noncomputable def slack (u : ℝ) (n : Nat) (D : ℝ) : ℝ := ((1 + u) ^ (2 * n + 2) - 1) * (2 * n * D)

theorem findBestSwapR_spec (H : RelErr u fl) (hmono : Monotone fl) {d : Nat → Nat → ℝ} {n : Nat}
    {s : PState ℝ} (hd : IsTable d n) {D : ℝ} (hD : ∀ i o, i < n → o < n → d i o ≤ D)
    (hms : ∀ m ∈ s.medoids, m < n) (h : BufR fl u d n s) (c : Nat) (hc : c < n) :
    ∃ delta i, findBestSwapR fl d n s c = some (delta, i) ∧ i < s.medoids.length ∧
      |delta - (td d n (s.medoids.set i c) - td d n s.medoids)| ≤ slack u n D ∧
      (∀ j, j < s.medoids.length → delta ≤ td d n (s.medoids.set j c) - td d n s.medoids + slack u n D) ∧
      (u ≤ 1 → delta < 0 → c ∈ s.medoids → s.medoids.set i c = s.medoids) := by
  obtain ⟨mi, xc, e1, l1, g1⟩ := gains_near H hd hD hms h c hc
  have hne : mi ≠ [] := by
    rintro rfl
    have := h.two
    simp at l1
    omega
  obtain ⟨i, v, e2, hi, hmin, -⟩ := Stats.minPair_spec mi hne
  have hil := lt_of_some hi
  have hget : ∀ (j : Nat) (y : ℝ), mi[j]? = some y → mi.getD j 0 = y := by
    intro j y hy
    rw [List.getD_eq_getElem?_getD, hy, Option.getD_some]
  refine ⟨fl (xc + v), i, ?_, by omega, ?_, ?_, ?_⟩
  · simp only [findBestSwapR, e1, Option.bind_eq_bind, Option.bind_some, e2]
  · have := (g1 i (by omega)).1
    rw [hget i v hi] at this
    exact this
  · intro j hj
    have hjl : j < mi.length := by omega
    have h1 := (abs_le.1 (g1 j hj).1).2
    rw [hget j _ (List.getElem?_eq_getElem hjl)] at h1
    have h2 : fl (xc + v) ≤ fl (xc + mi[j]) :=
      hmono (by linarith [hmin _ (List.getElem_mem hjl)])
    unfold slack
    linarith
  · intro hu hneg hcm
    obtain ⟨q, hq, rfl⟩ := List.mem_iff_getElem.1 hcm
    have hg := swapGainLoopR_medoid d s.buf s.medoids[q] q (List.range n) _ _ _ _ (by
      intro o ho r er
      have hr := h.recs o r er
      have hat : (dists d s.medoids o)[q]? = some (d s.medoids[q] o) := by
        rw [dists, List.getElem?_map, List.getElem?_eq_getElem hq, Option.map_some]
      exact ⟨hr.1.2.2 q _ (by simp) hat, fun hne => hr.2.2.2 q _ (by simpa using Ne.symm hne) hat⟩) e1
    have hrem : ∀ j, 0 ≤ s.removal.getD j 0 := by
      refine removalLoopR_nonneg H hu s.buf _ _ ?_ ?_ h.rem
      · intro r hr
        obtain ⟨o, ho, rfl⟩ := List.mem_iff_getElem.1 hr
        exact (h.recs _ _ (List.getElem?_eq_getElem ho)).le
      · intro j
        rw [List.getD_eq_getElem?_getD, List.getElem?_replicate]
        split <;> simp
    by_cases hiq : i = q
    · subst hiq
      exact List.set_getElem_self _
    · have h0 := hg.2 i hiq
      rw [hget i v hi] at h0
      have : 0 ≤ fl (xc + v) := H.sign_pos hu (by rw [hg.1, h0, zero_add]; exact hrem i)
      exact absurd hneg (not_lt.2 this)

/-- One candidate: either nothing changes, or one exchange that raises the total deviation by less than the
rounding error. -/
theorem tryCandidateR_spec (H : RelErr u fl) (hu : u ≤ 1) (hmono : Monotone fl) {d : Nat → Nat → ℝ} {n : Nat}
    {s : PState ℝ} (hd : IsTable d n) {D : ℝ} (hD : ∀ i o, i < n → o < n → d i o ≤ D)
    (hms : ∀ m ∈ s.medoids, m < n) (h : BufR fl u d n s) (c : Nat) (hc : c < n) :
    ∃ s', tryCandidateR fl d n s c = some s' ∧ BufR fl u d n s' ∧
      ((s' = s ∧ ∀ r, s.buf[c]? = some r → c ≠ r.i1 →
          ∀ j, j < s.medoids.length → td d n s.medoids ≤ td d n (s.medoids.set j c) + slack u n D) ∨
        (∃ b, b < s.medoids.length ∧ s'.medoids = s.medoids.set b c ∧
          (c ∉ s.medoids ∨ s'.medoids = s.medoids) ∧
          td d n s'.medoids < td d n s.medoids + slack u n D ∧
          ∀ j, j < s.medoids.length →
            td d n s'.medoids ≤ td d n (s.medoids.set j c) + 2 * slack u n D)) := by
  obtain ⟨r, er, -, -, -⟩ := recAtR h c hc
  simp only [tryCandidateR, er, Option.bind_eq_bind, Option.bind_some]
  split
  · rename_i hcr
    refine ⟨s, rfl, h, Or.inl ⟨rfl, ?_⟩⟩
    intro r' er' hne
    rw [Option.some.injEq] at er'
    subst er'
    exact absurd hcr hne
  · obtain ⟨delta, b, e1, hb, htd, hbest, hself⟩ := findBestSwapR_spec H hmono hd hD hms h c hc
    simp only [e1, Option.bind_some]
    rw [abs_le] at htd
    split
    · rename_i hneg
      obtain ⟨buf', v, e2, hl2, hr2, hv⟩ := swapBuffersR_spec H hd hms h.len h.recs c b hc hb
      obtain ⟨rem, e3⟩ := removalR_some H hr2
      simp only [e2, Option.bind_some, e3]
      refine ⟨_, rfl, ⟨by simpa using h.two, hl2, hr2, e3, hv⟩, Or.inr ⟨b, hb, rfl, ?_, ?_, ?_⟩⟩
      · by_cases hcm : c ∈ s.medoids
        · exact Or.inr (hself hu hneg hcm)
        · exact Or.inl hcm
      · dsimp only
        linarith
      · intro j hj
        dsimp only
        linarith [hbest j hj]
    · rename_i hneg
      refine ⟨s, rfl, h, Or.inl ⟨rfl, ?_⟩⟩
      intro _ _ _ j hj
      have := hbest j hj
      have := not_lt.1 hneg
      linarith

/-- What a pass over the candidates `cs` guarantees. -/
theorem stepLoopR_spec (H : RelErr u fl) (hu : u ≤ 1) (hmono : Monotone fl) {d : Nat → Nat → ℝ} {n : Nat}
    (hd : IsTable d n) {D : ℝ} (hD : ∀ i o, i < n → o < n → d i o ≤ D) (hs : 0 ≤ slack u n D)
    (cs : List Nat) :
    ∀ s : PState ℝ, (∀ c ∈ cs, c < n) → (∀ m ∈ s.medoids, m < n) → BufR fl u d n s →
    ∃ s', stepLoopR fl d n cs s = some s' ∧ BufR fl u d n s' ∧ s'.medoids.length = s.medoids.length ∧
      (∀ m ∈ s'.medoids, m < n) ∧ (s.medoids.Nodup → s'.medoids.Nodup) ∧
      td d n s'.medoids ≤ td d n s.medoids + cs.length * slack u n D := by
  induction cs with
  | nil =>
    intro s _ hms h
    exact ⟨s, rfl, h, rfl, hms, id, by simp⟩
  | cons c cs ih =>
    intro s hcs hms h
    have hcs' : ∀ q ∈ cs, q < n := fun q hq => hcs q (by simp [hq])
    obtain ⟨s1, e1, h1, hcase⟩ := tryCandidateR_spec H hu hmono hd hD hms h c (hcs c (by simp))
    have hk : s1.medoids.length = s.medoids.length ∧ (∀ m ∈ s1.medoids, m < n) ∧
        (s.medoids.Nodup → s1.medoids.Nodup) ∧ td d n s1.medoids ≤ td d n s.medoids + slack u n D := by
      rcases hcase with ⟨rfl, -⟩ | ⟨b, hb, em, hcm, hlt, -⟩
      · exact ⟨rfl, hms, id, by linarith⟩
      · refine ⟨by rw [em, List.length_set], ?_, ?_, hlt.le⟩
        · intro m hm
          rw [em] at hm
          rcases List.mem_or_eq_of_mem_set hm with h' | rfl
          · exact hms m h'
          · exact hcs _ (by simp)
        · intro hnd
          rcases hcm with hcm | hcm
          · rw [em]; exact hnd.set hcm
          · rw [hcm]; exact hnd
    obtain ⟨s2, e2, h2, l2, hm2, hn2, hle2⟩ := ih s1 hcs' hk.2.1 h1
    refine ⟨s2, by simp only [stepLoopR, e1, Option.bind_eq_bind, Option.bind_some, e2], h2,
      l2.trans hk.1, hm2, fun hn => hn2 (hk.2.2.1 hn), ?_⟩
    have := hk.2.2.2
    push_cast [List.length_cons]
    linarith

/-! ### The constructor -/

theorem foldl_near (H : RelErr u fl) (l : List ℝ) : ∀ (acc : ℝ) (m : Nat) (X A : ℝ), (∀ x ∈ l, 0 ≤ x) →
    Near u m A acc X →
    Near u (m + l.length) (A + l.sum) (l.foldl (fun s x => fl (s + x)) acc) (X + l.sum) := by
  induction l with
  | nil => intro acc m X A _ h; simpa using h
  | cons x l ih =>
    intro acc m X A hx h
    have := ih (fl (acc + x)) (m + 1) (X + x) (A + x) (fun y hy => hx y (by simp [hy]))
      (H.round (h.add ((near_self (le_of_eq (abs_of_nonneg (hx x (by simp))))).mono H.1 (by omega)
        (le_refl _))))
    rw [List.foldl_cons, List.sum_cons, ← add_assoc, ← add_assoc, List.length_cons,
      show m + (l.length + 1) = m + 1 + l.length by omega]
    exact this

theorem pamInitR_spec (H : RelErr u fl) (vmax : ℝ) (eq : ℝ → ℝ → Bool) {d : Nat → Nat → ℝ} {n : Nat}
    {ms : List Nat} (hd : IsTable d n) (hms : ∀ m ∈ ms, m < n)
    (hk : 2 ≤ ms.length) (hv : ∀ o, o < n → ∀ m ∈ ms, d m o < vmax)
    (ht : ∀ o, o < n → NoTies eq (dists d ms o)) :
    ∃ s, pamInitR fl vmax eq d n ms = some s ∧ s.medoids = ms ∧ BufR fl u d n s := by
  obtain ⟨s, e, em, h, -⟩ := pamInit_spec vmax eq hk hv ht
  unfold pamInit at e
  simp only [Option.bind_eq_bind, Option.bind_eq_some_iff] at e
  obtain ⟨i1s, e1, i2s, e2, d1s, e3, d2s, e4, buf, e5, rem, e6, e7⟩ := e
  rw [Option.some.injEq] at e7
  subst e7
  dsimp only at em
  have hl := h.len
  have hr := h.recs
  have hlo := h.loss
  dsimp only at hl hr hlo
  obtain ⟨rem', e6'⟩ := removalR_some H hr
  refine ⟨⟨ms, buf, rem', d1s.foldl (fun s x => fl (s + x)) 0⟩, ?_, rfl, ⟨hk, hl, hr, e6', ?_⟩⟩
  · unfold pamInitR
    simp only [Option.bind_eq_bind, Option.bind_eq_some_iff]
    exact ⟨i1s, e1, i2s, e2, d1s, e3, d2s, e4, buf, e5, rem', e6', rfl⟩
  · dsimp only
    have hne : ms ≠ [] := by rintro rfl; simp at hk
    have e3' : d1s = (List.range n).map fun o => (first vmax (row d ms o)).2 := by
      rw [nthDistances, if_neg (by omega), if_neg hne, if_pos rfl, nearestDistances, if_neg hne,
        Option.some.injEq] at e3
      exact e3.symm
    have hlen : d1s.length = n := by rw [e3']; simp
    have hnn : ∀ x ∈ d1s, 0 ≤ x := by
      intro x hx
      rw [e3', List.mem_map] at hx
      obtain ⟨o, ho, rfl⟩ := hx
      have ho' : o < buf.length := by rw [hl]; exact List.mem_range.1 ho
      rw [List.mem_range] at ho
      have h2 := second_spec vmax eq (dists d ms o) (by simpa [dists] using hk) (by
        intro v hv'
        simp only [dists, List.mem_map] at hv'
        obtain ⟨m, hm, rfl⟩ := hv'
        exact hv o ho m hm) (ht o ho)
      have hs := second_first vmax eq (row d ms o) 0 ⟨0, vmax, 0, vmax⟩
      have hmem := List.mem_of_getElem? h2.1.2.1
      have hfs : (first vmax (row d ms o)).2 = (second vmax eq (dists d ms o)).d1 := hs.2.symm
      rw [hfs]
      simp only [dists, List.mem_map] at hmem
      obtain ⟨q, hq, e⟩ := hmem
      have := hd.1 q o (hms q hq) ho
      rw [e] at this
      exact this
    have := foldl_near H d1s 0 0 0 0 hnn ⟨by simp, by simp⟩
    rw [hlen, zero_add, zero_add, hlo] at this
    exact this

end

end Verif.KMedoids
