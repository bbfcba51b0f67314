import Verif.Model.FasterMSCInt
import Verif.Lemmas.FasterMSC
import Verif.Props.Statistics

/-
Property C133: FasterMSC on integral data.
-/

namespace Verif.KMedoids

open Spec

theorem intDivision_small {a b : ℚ} (h0 : 0 ≤ a) (h : a < b) : intDivision a b = 0 := by
  unfold intDivision
  rw [if_neg (by linarith)]
  have : ⌊a / b⌋ = 0 := Int.floor_eq_zero_iff.2 ⟨div_nonneg h0 (by linarith), (div_lt_one (by linarith)).2 h⟩
  rw [this, Int.cast_zero]

theorem intDivision_nonneg {a b : ℚ} (h0 : 0 ≤ a) (h : 0 ≤ b) : 0 ≤ intDivision a b := by
  unfold intDivision
  split
  · exact le_rfl
  · exact_mod_cast Int.floor_nonneg.2 (div_nonneg h0 h)

/-- The three distances of a record are different and not negative. -/
def Apart (k : Nat) (r : Rec3 ℚ) : Prop :=
  r.i1 < k ∧ r.i2 < k ∧ 0 ≤ r.d1 ∧ r.d1 < r.d2 ∧ r.d2 < r.d3

theorem addAt_le {l : List ℚ} {i : Nat} {v xc xc' : ℚ} (h : ∀ x ∈ l, x + xc ≤ 0) (hi : i < l.length)
    (hx : xc' ≤ xc) (hv : v + (xc' - xc) ≤ 0) :
    ∃ l', addAt l i v = some l' ∧ l'.length = l.length ∧ ∀ x ∈ l', x + xc' ≤ 0 := by
  unfold addAt
  rw [List.getElem?_eq_getElem hi]
  refine ⟨_, rfl, by simp, fun x hm => ?_⟩
  rcases List.mem_or_eq_of_mem_set hm with h' | rfl
  · have := h x h'; linarith
  · have := h l[i] (List.getElem_mem hi); linarith

theorem removalLoop3_le (rs : List (Rec3 ℚ)) : ∀ acc : List ℚ, (∀ r ∈ rs, Apart acc.length r) →
    (∀ x ∈ acc, x + 0 ≤ (0 : ℚ)) → ∃ acc', removalLoop3 intDivision rs acc = some acc' ∧
      acc'.length = acc.length ∧ ∀ x ∈ acc', x + 0 ≤ (0 : ℚ) := by
  induction rs with
  | nil => intro acc _ h; exact ⟨acc, rfl, rfl, h⟩
  | cons r rs ih =>
    intro acc hr h
    obtain ⟨hi1, hi2, h0, h12, h23⟩ := hr r (by simp)
    rw [removalLoop3, intDivision_small h0 h12, intDivision_small (h0.trans h12.le) h23,
      intDivision_small h0 (h12.trans h23)]
    obtain ⟨a1, e1, l1, g1⟩ := addAt_le (v := 0 - 0) h hi1 le_rfl (by norm_num)
    obtain ⟨a2, e2, l2, g2⟩ := addAt_le (v := 0 - 0) g1 (l1 ▸ hi2) le_rfl (by norm_num)
    obtain ⟨a3, e3, l3, g3⟩ := ih a2 (fun q hq => by rw [l2, l1]; exact hr q (by simp [hq])) g2
    exact ⟨a3, by simp only [e1, e2, Option.bind_eq_bind, Option.bind_some, e3], by omega, g3⟩

theorem swapGainLoop3_le (d : Nat → Nat → ℚ) (buf : List (Rec3 ℚ)) (c : Nat) (os : List Nat) :
    ∀ (mi : List ℚ) (xc : ℚ), (∀ o ∈ os, 0 ≤ d c o ∧ ∃ r, buf[o]? = some r ∧ Apart mi.length r) →
      (∀ x ∈ mi, x + xc ≤ 0) →
      ∃ mi' xc', swapGainLoop3 intDivision d buf c os mi xc = some (mi', xc') ∧ mi'.length = mi.length ∧
        ∀ x ∈ mi', x + xc' ≤ 0 := by
  induction os with
  | nil => intro mi xc _ h; exact ⟨mi, xc, rfl, rfl, h⟩
  | cons o os ih =>
    intro mi xc ho h
    obtain ⟨hdoc, r, er, hi1, hi2, h0, h12, h23⟩ := ho o (by simp)
    have ho' : ∀ q ∈ os, 0 ≤ d c q ∧ ∃ r, buf[q]? = some r ∧ Apart mi.length r := fun q hq => ho q (by simp [hq])
    rw [swapGainLoop3, er]
    simp only [Option.bind_eq_bind, Option.bind_some, intDivision_small h0 h12,
      intDivision_small (h0.trans h12.le) h23, intDivision_small h0 (h12.trans h23)]
    have hs := intDivision_nonneg (a := r.d1 + d c o) (b := r.d2) (by linarith) (by linarith)
    by_cases c1 : d c o < r.d1
    · simp only [if_pos c1, intDivision_small hdoc c1]
      obtain ⟨a1, e1, l1, g1⟩ := addAt_le (v := 0 + 0 - intDivision (r.d1 + d c o) r.d2) (xc' := xc + (0 - 0)) h hi1
        (by linarith) (by linarith)
      obtain ⟨a2, e2, l2, g2⟩ := addAt_le (v := 0 - 0) g1 (l1 ▸ hi2) le_rfl (by norm_num)
      obtain ⟨m, x, e3, l3, g3⟩ := ih a2 _ (by rw [l2, l1]; exact ho') g2
      exact ⟨m, x, by rw [e1, Option.bind_some, e2, Option.bind_some, e3], by omega, g3⟩
    simp only [if_neg c1]
    have hq := intDivision_nonneg h0 hdoc
    by_cases c2 : d c o < r.d2
    · simp only [if_pos c2]
      obtain ⟨a1, e1, l1, g1⟩ := addAt_le (v := intDivision r.d1 (d c o) + 0 - intDivision (r.d1 + d c o) r.d2)
        (xc' := xc + (0 - intDivision r.d1 (d c o))) h hi1 (by linarith) (by linarith)
      obtain ⟨a2, e2, l2, g2⟩ := addAt_le (v := 0 - 0) g1 (l1 ▸ hi2) le_rfl (by norm_num)
      obtain ⟨m, x, e3, l3, g3⟩ := ih a2 _ (by rw [l2, l1]; exact ho') g2
      exact ⟨m, x, by rw [e1, Option.bind_some, e2, Option.bind_some, e3], by omega, g3⟩
    simp only [if_neg c2]
    have hq2 := intDivision_nonneg (h0.trans h12.le) hdoc
    by_cases c3 : d c o < r.d3
    · simp only [if_pos c3]
      obtain ⟨a1, e1, l1, g1⟩ := addAt_le (v := 0 - intDivision r.d2 (d c o)) h hi1 le_rfl (by linarith)
      obtain ⟨a2, e2, l2, g2⟩ := addAt_le (v := 0 - intDivision r.d1 (d c o)) g1 (l1 ▸ hi2) le_rfl (by linarith)
      obtain ⟨m, x, e3, l3, g3⟩ := ih a2 _ (by rw [l2, l1]; exact ho') g2
      exact ⟨m, x, by rw [e1, Option.bind_some, e2, Option.bind_some, e3], by omega, g3⟩
    · simp only [if_neg c3]
      exact ih mi xc ho' h

/-- A step changes nothing. -/
theorem mscStepInt_same {d : Nat → Nat → ℚ} {n : Nat} (hd : ∀ i j, i < n → j < n → 0 ≤ d i j) {s : MState ℚ}
    (hk : 3 ≤ s.medoids.length) (hr : ∀ o, o < n → ∃ r, s.buf[o]? = some r ∧ Apart s.medoids.length r)
    (hrem : s.removal.length = s.medoids.length ∧ ∀ x ∈ s.removal, x + 0 ≤ (0 : ℚ)) :
    mscStepInt d n s = some s := by
  have one : ∀ c, c < n → tryCandidate3Int d n s c = some s := by
    intro c hc
    obtain ⟨r, er, -⟩ := hr c hc
    simp only [tryCandidate3Int, er, Option.bind_eq_bind, Option.bind_some]
    by_cases hcr : c = r.i1
    · rw [if_pos hcr]
    rw [if_neg hcr]
    obtain ⟨mi, xc, e, hl, hle⟩ := swapGainLoop3_le d s.buf c (List.range n) s.removal 0 (fun o ho => by
      have ho := List.mem_range.1 ho
      rw [hrem.1]
      exact ⟨hd c o hc ho, hr o ho⟩) hrem.2
    obtain ⟨i, v, e2, hi, -⟩ := Stats.maxPair_spec mi (by rintro rfl; simp at hl; omega)
    have := hle v (List.mem_of_getElem? hi)
    simp only [findBestSwap3, e, e2, Option.bind_eq_bind, Option.bind_some]
    rw [if_neg (by linarith)]
  have loop : ∀ cs : List Nat, (∀ c ∈ cs, c < n) → stepLoop3Int d n cs s = some s := by
    intro cs
    induction cs with
    | nil => intro _; rfl
    | cons c cs ih =>
      intro hc
      rw [stepLoop3Int, one c (hc c (by simp))]
      exact ih fun q hq => hc q (by simp [hq])
  exact loop _ fun c hc => List.mem_range.1 hc

/-- **C133**.  On data of a signed integral type (distances are whole numbers) and at least three medoids, from any medoids for
which no sample has two equal distances, FasterMSC makes no exchange: its constructor and any number of steps
have no access out of bounds, and the medoids stay those of the start, whatever the data. -/
theorem C133_no_exchange (vmax : ℚ) (d : Nat → Nat → ℚ) (n : Nat) (ms : List Nat)
    (hd : ∀ i j, i < n → j < n → ∃ z : ℕ, d i j = z) (hms : ∀ m ∈ ms, m < n) (hk : 3 ≤ ms.length)
    (hv : ∀ j, j < n → ∀ m ∈ ms, d m j < vmax) (ht : ∀ j, j < n → (ms.map (d · j)).Nodup) (t : Nat) :
    ∃ s, (mscInitInt vmax d n ms).bind (KMeans.runN (mscStepInt d n) t) = some s ∧ s.medoids = ms := by
  have hd0 : ∀ i j, i < n → j < n → 0 ≤ d i j := by
    intro i j hi hj
    obtain ⟨z, e⟩ := hd i j hi hj
    rw [e]
    positivity
  have hnt : ∀ o, o < n → NoTies eqRat (dists d ms o) := by
    intro o ho i j x y hij hx hy
    obtain ⟨hi, rfl⟩ := List.getElem?_eq_some_iff.1 hx
    obtain ⟨hj, rfl⟩ := List.getElem?_eq_some_iff.1 hy
    have : (dists d ms o)[i] ≠ (dists d ms o)[j] := fun e => hij ((List.Nodup.getElem_inj_iff (ht o ho)).1 e)
    exact ⟨this, by simp [eqRat, this]⟩
  obtain ⟨s, e, em, h, -⟩ := mscInit_spec vmax eqRat hk hv hnt
  have hlen := h.len
  have hrecs := h.recs
  rw [em] at hrecs
  unfold mscInit at e
  simp only [if_pos (show 2 < ms.length by omega), Option.bind_eq_bind, Option.bind_eq_some_iff] at e
  obtain ⟨i1s, e1, d1s, e2, d2s, e3, i2s, e4, i3s, e5, d3s, e6, buf, e7, rem, e8, e9⟩ := e
  rw [Option.some.injEq] at e9
  subst e9
  dsimp only at hrecs hlen
  have hap : ∀ o, o < n → ∃ r, buf[o]? = some r ∧ Apart ms.length r := by
    intro o ho
    have ho' : o < buf.length := by omega
    refine ⟨buf[o], List.getElem?_eq_getElem ho', ?_⟩
    obtain ⟨⟨-, a1, b1⟩, ⟨n2, a2, b2⟩, ⟨n3, a3, b3⟩⟩ := hrecs o _ (List.getElem?_eq_getElem ho')
    simp only [List.mem_cons, List.not_mem_nil, or_false, not_or] at n2 n3
    have l1 := (List.getElem?_eq_some_iff.1 a1).1
    have l2 := (List.getElem?_eq_some_iff.1 a2).1
    have el : (dists d ms o).length = ms.length := by simp [dists]
    have p0 : 0 ≤ buf[o].d1 := by
      obtain ⟨m, hm, e⟩ := List.mem_map.1 (List.mem_of_getElem? a1)
      rw [← e]
      exact hd0 m o (hms m hm) ho
    refine ⟨by omega, by omega, p0, lt_of_le_of_ne (b1 _ _ (by simp) a2) ?_,
      lt_of_le_of_ne (b2 _ _ (by simpa using n3.1) a3) ?_⟩
    · exact (hnt o ho _ _ _ _ (fun e => n2 e.symm) a1 a2).1
    · exact (hnt o ho _ _ _ _ (fun e => n3.2 e.symm) a2 a3).1
  obtain ⟨rem', e10, l10, g10⟩ := removalLoop3_le buf (List.replicate ms.length 0) (by
    intro r hr
    obtain ⟨o, ho, rfl⟩ := List.mem_iff_getElem.1 hr
    obtain ⟨r', er, hr'⟩ := hap o (by omega)
    rw [List.getElem?_eq_getElem ho, Option.some.injEq] at er
    rw [er, List.length_replicate]
    exact hr') (fun x hx => by rw [List.eq_of_mem_replicate hx]; norm_num)
  rw [List.length_replicate] at l10
  have ei : mscInitInt vmax d n ms = some ⟨ms, buf, rem', d1s.sum⟩ := by
    unfold mscInitInt
    simp only [Option.bind_eq_bind, Option.bind_eq_some_iff]
    exact ⟨i1s, e1, d1s, e2, d2s, e3, i2s, e4, i3s, e5, d3s, e6, buf, e7, rem', e10, rfl⟩
  have es : mscStepInt d n ⟨ms, buf, rem', d1s.sum⟩ = some ⟨ms, buf, rem', d1s.sum⟩ :=
    mscStepInt_same hd0 hk hap ⟨l10, g10⟩
  refine ⟨⟨ms, buf, rem', d1s.sum⟩, ?_, rfl⟩
  rw [ei, Option.bind_some]
  induction t with
  | zero => rfl
  | succ t ih => rw [KMeans.runN, ih, Option.bind_some, es]

/-! ### Example -/

/-- Distances of the samples 0, 1, 3, 100, 200, 202 on a line. -/
def lineRat (i j : Nat) : ℚ :=
  (|([0, 1, 3, 100, 200, 202] : List ℤ).getD i 0 - ([0, 1, 3, 100, 200, 202] : List ℤ).getD j 0| : ℤ)

example := C133_no_exchange 1000 lineRat 6 [0, 1, 2]
  (fun i j _ _ => ⟨(|([0, 1, 3, 100, 200, 202] : List ℤ).getD i 0 - ([0, 1, 3, 100, 200, 202] : List ℤ).getD j 0|).toNat,
    by
      unfold lineRat
      exact_mod_cast (Int.toNat_of_nonneg (abs_nonneg _)).symm⟩)
  (by decide) (by decide) (by decide +kernel) (by decide +kernel)

/-- The same samples and medoids with exact ratios: the medoids move to the three groups. -/
theorem C133_counterexample :
    ((mscInit (1000 : ℚ) eqRat lineRat 6 [0, 1, 2]).bind (KMeans.runN (mscStep eqRat lineRat 6) 3)).map (·.medoids) =
      some [3, 1, 4] ∧
    ((mscInitInt 1000 lineRat 6 [0, 1, 2]).bind (KMeans.runN (mscStepInt lineRat 6) 3)).map (·.medoids) =
      some [0, 1, 2] := by
  decide +kernel

end Verif.KMedoids
