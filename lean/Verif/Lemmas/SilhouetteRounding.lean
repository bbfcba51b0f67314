import Verif.Model.SilhouetteRounding
import Verif.Lemmas.Silhouette
import Verif.Lemmas.AliasRounded

/-
Lemmas on the silhouette scores with rounded arithmetic.
-/

namespace Verif.Silhouette

open Spec
open Verif.Rounding (Rounding IsFloat unit isFloat_zero two_zpow_pos)
open Verif.Random (foldl_sum_bounds isFloat_natCast)

variable {p : Nat} {R : Rounding p}

theorem mk_add (x y : ℝ) : Flt.mk R x + Flt.mk R y = Flt.mk R (R.rnd (x + y)) := rfl

theorem mk_zero : (0 : Flt R) = Flt.mk R 0 := rfl

theorem mk_le {x y : ℝ} : Flt.mk R x ≤ Flt.mk R y ↔ x ≤ y := WithTop.coe_le_coe

theorem mk_lt {x y : ℝ} : Flt.mk R x < Flt.mk R y ↔ x < y := WithTop.coe_lt_coe

theorem mk_lt_inf (x : ℝ) : Flt.mk R x < (fltOps R).inf := WithTop.coe_lt_top x

theorem div_mk (x y : ℝ) : (fltOps R).div (Flt.mk R x) (Flt.mk R y) = Flt.mk R (R.rnd (x / y)) := rfl

/-- Sum from left to right. -/
noncomputable def sumFrom (R : Rounding p) (s : ℝ) (l : List ℝ) : ℝ := l.foldl (fun s x => R.rnd (s + x)) s

theorem cohesionLoop_rounded (d : Nat → Nat → ℝ) (labels : List Nat) (i c : Nat) (js : List Nat) :
    ∀ acc : ℝ, (∀ j ∈ js, j < labels.length) →
      cohesionLoop (fun i j => Flt.mk R (d i j)) labels i c js (Flt.mk R acc) =
      some (Flt.mk R (sumFrom R acc
        ((js.filter fun j => decide (labels[j]? = some c) && decide (i ≠ j)).map (d i)))) := by
  induction js with
  | nil => intro acc _; simp [cohesionLoop, sumFrom]
  | cons j js ih =>
    intro acc h
    have hj := h j (by simp)
    rw [cohesionLoop, List.getElem?_eq_getElem hj]
    simp only [Option.bind_eq_bind, Option.bind_some]
    rw [List.filter_cons, List.getElem?_eq_getElem hj]
    by_cases hc : c = labels[j] ∧ i ≠ j
    · rw [if_pos hc, if_pos (by simp [hc.1.symm, hc.2]), mk_add, ih _ (fun q hq => h q (by simp [hq]))]
      rfl
    · rw [if_neg hc, if_neg, ih _ (fun q hq => h q (by simp [hq]))]
      simp only [Bool.and_eq_true, decide_eq_true_eq, Option.some.injEq]
      exact fun hh => hc ⟨hh.1.symm, hh.2⟩

theorem separationLoop_rounded (d : Nat → Nat → ℝ) (labels : List Nat) (i c k : Nat) (js : List Nat) :
    ∀ f : Nat → ℝ, (∀ j ∈ js, ∃ q, labels[j]? = some q ∧ q < k) →
    separationLoop (fun i j => Flt.mk R (d i j)) labels i c js ((List.range k).map fun q => Flt.mk R (f q)) =
      some ((List.range k).map fun q => Flt.mk R (if q = c then f q else
        sumFrom R (f q) ((js.filter fun j => decide (labels[j]? = some q)).map (d i)))) := by
  induction js with
  | nil =>
    intro f _
    simp [separationLoop, sumFrom]
  | cons j js ih =>
    intro f h
    obtain ⟨c', e, hk⟩ := h j (by simp)
    have h' : ∀ q ∈ js, _ := fun q hq => h q (List.mem_cons_of_mem _ hq)
    rw [separationLoop, e]
    simp only [Option.bind_eq_bind, Option.bind_some]
    split
    · rename_i hne
      rw [KMedoids.addAt, map_range_get k _ c' hk]
      simp only [Option.bind_eq_bind, Option.bind_some, set_map_range, mk_add]
      have := ih (fun q => if q = c' then R.rnd (f c' + d i j) else f q) h'
      have e2 : ((List.range k).map fun q => if q = c' then Flt.mk R (R.rnd (f c' + d i j)) else Flt.mk R (f q)) =
          (List.range k).map fun q => Flt.mk R (if q = c' then R.rnd (f c' + d i j) else f q) := by
        apply List.map_congr_left
        intro q _
        split <;> rfl
      rw [e2, this]
      congr 1
      apply List.map_congr_left
      intro q _
      rw [List.filter_cons, e]
      by_cases hqc : q = c
      · rw [if_pos hqc, if_pos hqc, if_neg (by omega)]
      · rw [if_neg hqc, if_neg hqc]
        by_cases hq : q = c'
        · rw [if_pos hq, if_pos (by simp [hq]), List.map_cons, hq]
          rfl
        · rw [if_neg hq, if_neg (by simpa using fun e : c' = q => hq e.symm)]
    · rename_i hcc
      have hcc : c = c' := not_not.1 hcc
      rw [ih _ h']
      congr 1
      apply List.map_congr_left
      intro q _
      rw [List.filter_cons, e]
      by_cases hqc : q = c
      · rw [if_pos hqc, if_pos hqc]
      · rw [if_neg hqc, if_neg hqc, if_neg (by simpa using fun e : c' = q => hqc (by omega))]

/-- `a'` is within a factor `g` of `a`. -/
def Near (g a' a : ℝ) : Prop := 0 ≤ a' ∧ 0 ≤ a ∧ a' ≤ a * g ∧ a ≤ a' * g

/-- The computed mean of `k` distances. -/
noncomputable def meanR (R : Rounding p) (d : Nat → Nat → ℝ) (i : Nat) (js : List Nat) : ℝ :=
  R.rnd (sumFrom R 0 (js.map (d i)) / R.rnd (js.length : ℝ))

theorem one_le_pow_unit (n : Nat) : 1 ≤ (1 + unit p) ^ n :=
  one_le_pow₀ (by linarith [Rounding.unit_pos (p := p)])

theorem meanR_near {d : Nat → Nat → ℝ} {i n : Nat} {js : List Nat} (hd : ∀ j, 0 ≤ d i j ∧ IsFloat p (d i j))
    (hlen : js.length ≤ n) (hn : n ≤ 2 ^ p) : Near ((1 + unit p) ^ (n + 1)) (meanR R d i js) (mean d i js) := by
  have hu := Rounding.unit_pos (p := p)
  have hall : ∀ x ∈ js.map (d i), 0 ≤ x ∧ IsFloat p x := by
    intro x hx
    obtain ⟨j, -, rfl⟩ := List.mem_map.1 hx
    exact hd j
  obtain ⟨h1, -, h2, h3⟩ := foldl_sum_bounds R (js.map (d i)) 0 le_rfl isFloat_zero hall
  rw [List.length_map, zero_add] at h2 h3
  have hS : 0 ≤ (js.map (d i)).sum := List.sum_nonneg fun x hx => (hall x hx).1
  unfold meanR mean sumFrom
  rw [R.of_isFloat (isFloat_natCast (hlen.trans hn))]
  generalize (js.map (d i)).foldl (fun s x => R.rnd (s + x)) 0 = T at *
  generalize (js.map (d i)).sum = S at *
  have hk : (0 : ℝ) ≤ js.length := Nat.cast_nonneg _
  have hq : 0 ≤ T / js.length := div_nonneg h1 hk
  have e1 := R.rnd_le_mul hq
  have e2 := R.le_rnd_mul hq
  have hg : (1 + unit p) ^ js.length ≤ (1 + unit p) ^ n := pow_le_pow_right₀ (by linarith) hlen
  have hg0 : (0 : ℝ) ≤ (1 + unit p) ^ n := by positivity
  have a1 : T ≤ S * (1 + unit p) ^ n := h2.trans (mul_le_mul_of_nonneg_left hg hS)
  have a2 : S ≤ T * (1 + unit p) ^ n := h3.trans (mul_le_mul_of_nonneg_left hg h1)
  have b1 : T / js.length ≤ S / js.length * (1 + unit p) ^ n := by
    rw [div_mul_eq_mul_div]
    exact div_le_div_of_nonneg_right a1 hk
  have b2 : S / js.length ≤ T / js.length * (1 + unit p) ^ n := by
    rw [div_mul_eq_mul_div]
    exact div_le_div_of_nonneg_right a2 hk
  refine ⟨R.nonneg hq, div_nonneg hS hk, ?_, ?_⟩
  · rw [pow_succ, ← mul_assoc]
    exact e1.trans (mul_le_mul_of_nonneg_right b1 (by linarith))
  · rw [pow_succ]
    have := mul_le_mul_of_nonneg_right e2 hg0
    calc _ ≤ _ := b2
      _ ≤ _ := this
      _ = _ := by ring

/-- The computed mean of the distances from a sample to the others of its cluster. -/
noncomputable def withinR (R : Rounding p) (d : Nat → Nat → ℝ) (labels : List Nat) (i c : Nat) : ℝ :=
  meanR R d i ((members labels c).filter fun j => decide (i ≠ j))

theorem cohesion_rounded (d : Nat → Nat → ℝ) {labels : List Nat} {i c m : Nat} (hi : labels[i]? = some c)
    (hc : c ≤ m) :
    cohesion (fltOps R) (fun i j => Flt.mk R (d i j)) labels.length labels
      ((List.range (1 + m)).map fun c => (members labels c).length) i =
      some (Flt.mk R (withinR R d labels i c)) := by
  simp only [cohesion, hi, Option.bind_eq_bind, Option.bind_some]
  rw [mk_zero, cohesionLoop_rounded _ _ _ _ _ _ (fun j => List.mem_range.1), Option.bind_some,
    map_range_get _ _ _ (by omega), Option.bind_some]
  have ef : (List.range labels.length).filter (fun j => decide (labels[j]? = some c) && decide (i ≠ j)) =
      (members labels c).filter fun j => decide (i ≠ j) := by
    unfold members
    rw [List.filter_filter]
    apply List.filter_congr
    intro j _
    exact Bool.and_comm _ _
  rw [ef]
  have hl := filter_ne_length _ i (members_nodup labels c) (mem_members.2 hi)
  unfold withinR meanR
  split
  · rename_i h1
    congr 1
    show (fltOps R).div _ (Flt.mk R (R.rnd ((members labels c).length - 1 : Nat))) = _
    rw [div_mk, ← hl, Nat.add_sub_cancel]
  · rename_i h1
    have : (members labels c).filter (fun j => decide (i ≠ j)) = [] := by
      rw [← List.length_eq_zero_iff]; omega
    rw [this]
    simp [sumFrom, R.zero]

theorem separation_list_rounded (d : Nat → Nat → ℝ) {labels : List Nat} {i c m : Nat}
    (hi : labels[i]? = some c) (hm : ∀ q ∈ labels, q ≤ m) (hc : c ≤ m) :
    ∃ L : List (Flt R), separation (fltOps R) (fun i j => Flt.mk R (d i j)) labels.length labels
        ((List.range (1 + m)).map fun c => (members labels c).length) i =
        (Stats.minPair L).map (·.2) ∧ L ≠ [] ∧
      ∀ v, v ∈ L ↔ ∃ q, q ≤ m ∧ ((q = c ∧ v = (fltOps R).inf) ∨
        (q ≠ c ∧ members labels q = [] ∧ v = (fltOps R).inf) ∨
        (q ≠ c ∧ members labels q ≠ [] ∧ v = Flt.mk R (meanR R d i (members labels q)))) := by
  refine ⟨(List.range (1 + m)).map fun q => if q = c then (fltOps R).inf else
    if members labels q = [] then (fltOps R).inf else Flt.mk R (meanR R d i (members labels q)),
    ?_, by simp, ?_⟩
  · simp only [separation, hi, Option.bind_eq_bind, Option.bind_some, List.length_map, List.length_range]
    rw [replicate_eq_map, mk_zero, separationLoop_rounded _ _ _ _ _ _ (fun _ => 0) (by
      intro j hj
      have hj := List.mem_range.1 hj
      refine ⟨labels[j], List.getElem?_eq_getElem hj, ?_⟩
      have := hm _ (List.getElem_mem hj)
      omega), Option.bind_some]
    rw [List.zipWith_map, List.zipWith_self, List.length_map, List.length_range, if_pos (by omega),
      set_map_range]
    rw [Option.map_eq_bind]
    congr 2
    apply List.map_congr_left
    intro q _
    by_cases hq : q = c
    · rw [if_pos hq, if_pos hq]
    · rw [if_neg hq, if_neg hq, if_neg hq]
      by_cases he : members labels q = []
      · rw [if_pos he, if_pos (by rw [he]; rfl)]
      · rw [if_neg he, if_neg (by rwa [List.length_eq_zero_iff])]
        rfl
  · intro v
    simp only [List.mem_map, List.mem_range]
    constructor
    · rintro ⟨q, hq, rfl⟩
      refine ⟨q, by omega, ?_⟩
      by_cases hqc : q = c
      · exact Or.inl ⟨hqc, by rw [if_pos hqc]⟩
      · by_cases he : members labels q = []
        · exact Or.inr (Or.inl ⟨hqc, he, by rw [if_neg hqc, if_pos he]⟩)
        · exact Or.inr (Or.inr ⟨hqc, he, by rw [if_neg hqc, if_neg he]⟩)
    · rintro ⟨q, hq, ⟨hqc, rfl⟩ | ⟨hqc, he, rfl⟩ | ⟨hqc, he, rfl⟩⟩
      · exact ⟨q, by omega, by rw [if_pos hqc]⟩
      · exact ⟨q, by omega, by rw [if_neg hqc, if_pos he]⟩
      · exact ⟨q, by omega, by rw [if_neg hqc, if_neg he]⟩

theorem members_length_le (labels : List Nat) (c : Nat) : (members labels c).length ≤ labels.length := by
  unfold members
  refine (List.length_filter_le _ _).trans ?_
  simp

/-- The computed separation with another cluster. -/
theorem separation_rounded (d : Nat → Nat → ℝ) {labels : List Nat} {i c m : Nat}
    (hd : ∀ i j, 0 ≤ d i j ∧ IsFloat p (d i j)) (hn : labels.length ≤ 2 ^ p)
    (hi : labels[i]? = some c) (hm : ∀ q ∈ labels, q ≤ m) (h2 : ∃ q ∈ labels, q ≠ c) :
    ∃ b' b : ℝ, separation (fltOps R) (fun i j => Flt.mk R (d i j)) labels.length labels
        ((List.range (1 + m)).map fun c => (members labels c).length) i = some (Flt.mk R b') ∧
      IsFloat p b' ∧ IsBetween d labels i c b ∧ Near ((1 + unit p) ^ (labels.length + 1)) b' b := by
  obtain ⟨L, e, hne, hL⟩ := separation_list_rounded (R := R) d hi hm (hm c (List.mem_of_getElem? hi))
  obtain ⟨p1, v, ev, hp, hmin, -⟩ := Stats.minPair_spec L hne
  obtain ⟨q, hq, hqc⟩ := h2
  have hmem_of : ∀ q ∈ labels, members labels q ≠ [] := by
    intro q hq
    obtain ⟨j, hj⟩ := List.mem_iff_getElem?.1 hq
    exact List.ne_nil_of_mem (mem_members.2 hj)
  have hmem : ∀ q ∈ labels, q ≠ c → Flt.mk R (meanR R d i (members labels q)) ∈ L := fun q hq hqc =>
    (hL _).2 ⟨q, hm q hq, Or.inr (Or.inr ⟨hqc, hmem_of q hq, rfl⟩)⟩
  have hle := hmin _ (hmem q hq hqc)
  have hnear : ∀ q, Near ((1 + unit p) ^ (labels.length + 1)) (meanR R d i (members labels q))
      (mean d i (members labels q)) := fun q =>
    meanR_near (fun j => hd i j) (members_length_le labels q) hn
  -- a cluster of least exact mean
  obtain ⟨t, ht, htm⟩ : ∃ t ∈ labels.filter (fun q => decide (q ≠ c)),
      ∀ q ∈ labels.filter (fun q => decide (q ≠ c)),
        mean d i (members labels t) ≤ mean d i (members labels q) := by
    have hne' : (labels.filter (fun q => decide (q ≠ c))).toFinset.Nonempty :=
      ⟨q, by simp [hq, hqc]⟩
    obtain ⟨t, ht, h⟩ := Finset.exists_min_image _ (fun q => mean d i (members labels q)) hne'
    exact ⟨t, List.mem_toFinset.1 ht, fun q hq => h q (List.mem_toFinset.2 hq)⟩
  have ht' : t ∈ labels ∧ t ≠ c := by simpa using ht
  obtain ⟨r, hr, h⟩ := (hL v).1 (List.mem_of_getElem? hp)
  rcases h with ⟨-, rfl⟩ | ⟨-, -, rfl⟩ | ⟨hrc, hrm, rfl⟩
  · exact absurd hle (not_le.2 (mk_lt_inf _))
  · exact absurd hle (not_le.2 (mk_lt_inf _))
  · refine ⟨meanR R d i (members labels r), mean d i (members labels t), by rw [e, ev]; rfl, R.isFloat _,
      ⟨⟨t, ht'.2, hmem_of t ht'.1, rfl⟩, ?_⟩, (hnear r).1, (hnear t).2.1, ?_, ?_⟩
    · intro c' hc' hm'
      exact htm c' (by simp [label_of_member hm', hc'])
    · exact (mk_le.1 (hmin _ (hmem t ht'.1 ht'.2))).trans (hnear t).2.2.1
    · exact (htm r (by simp [label_of_member hrm, hrc])).trans (hnear r).2.2.2

/-- The computed separation without another cluster is infinite. -/
theorem separation_top_rounded (d : Nat → Nat → ℝ) {labels : List Nat} {i c m : Nat}
    (hi : labels[i]? = some c) (hm : ∀ q ∈ labels, q ≤ m) (h2 : ∀ q ∈ labels, q = c) :
    separation (fltOps R) (fun i j => Flt.mk R (d i j)) labels.length labels
        ((List.range (1 + m)).map fun c => (members labels c).length) i = some (fltOps R).inf := by
  obtain ⟨L, e, hne, hL⟩ := separation_list_rounded (R := R) d hi hm (hm c (List.mem_of_getElem? hi))
  obtain ⟨p1, v, ev, hp, hmin, -⟩ := Stats.minPair_spec L hne
  rw [e, ev]
  obtain ⟨r, hr, h⟩ := (hL v).1 (List.mem_of_getElem? hp)
  rcases h with ⟨-, rfl⟩ | ⟨-, -, rfl⟩ | ⟨hrc, hrm, rfl⟩
  · rfl
  · rfl
  · exact absurd (h2 r (label_of_member hrm)) hrc

/-! ### scores -/

/-- The quotient of two numbers of the format, the smaller by the larger, is computed below 1. -/
theorem quotient_lt_one (R : Rounding p) (hp : 1 ≤ p) {a b : ℝ} (ha : IsFloat p a) (hb : IsFloat p b)
    (h0 : 0 ≤ a) (h : a < b) : R.rnd (a / b) < 1 := by
  have hb0 : 0 < b := h0.trans_lt h
  have hu := Rounding.unit_pos (p := p)
  obtain ⟨m, e, m1, m2, rfl⟩ := Rounding.normal hp hb hb0
  have he := two_zpow_pos e
  have hm0 : (0 : ℝ) < m := by
    by_contra hn
    exact absurd hb0 (not_lt.2 (mul_nonpos_of_nonpos_of_nonneg (not_lt.1 hn) he.le))
  have h1f : IsFloat p (1 - unit p) := by
    refine ⟨2 ^ p - 1, -(p : ℤ), ?_, ?_⟩
    · have : (1 : ℤ) ≤ 2 ^ p := one_le_pow₀ (by norm_num)
      rw [abs_of_nonneg (by linarith)]
      linarith
    · unfold unit
      push_cast
      rw [sub_mul, one_mul, ← zpow_natCast, ← zpow_add₀ (by norm_num)]
      simp
  have key : a / (m * (2 : ℝ) ^ e) ≤ 1 - unit p := by
    rcases Int.le_iff_eq_or_lt.1 m1 with heq | hlt
    · -- the divisor is a power of two
      have hq : IsFloat p (a / (m * (2 : ℝ) ^ e)) := by
        obtain ⟨k, f, hk, rfl⟩ := ha
        refine ⟨k, f - ((p - 1 : ℕ) : ℤ) - e, hk, ?_⟩
        rw [← heq]
        push_cast
        rw [zpow_sub₀ (by norm_num), zpow_sub₀ (by norm_num), zpow_natCast]
        field_simp
      have hlt1 : a / (m * (2 : ℝ) ^ e) < 1 := (div_lt_one hb0).2 h
      have h2 : (2 : ℤ) ^ (p - 1) < 2 ^ p := pow_lt_pow_right₀ (by norm_num) (by omega)
      have e1 : ((2 ^ p : ℤ) : ℝ) * (2 : ℝ) ^ (-(p : ℤ)) = 1 := by
        push_cast
        rw [← zpow_natCast, ← zpow_add₀ (by norm_num)]
        simp
      have := Rounding.pred (p := p) (m := 2 ^ p) (e := -(p : ℤ)) h2 hp hq (by rw [e1]; exact hlt1)
      rw [sub_mul, e1, one_mul] at this
      exact this
    · have := Rounding.pred hlt hp ha h
      rw [div_le_iff₀ hb0]
      have hmu : (m : ℝ) * unit p ≤ 1 := by
        have h3 : (m : ℝ) ≤ 2 ^ p := by exact_mod_cast m2.le
        have h4 : (2 : ℝ) ^ p * unit p = 1 := by
          unfold unit
          rw [← zpow_natCast, ← zpow_add₀ (by norm_num)]
          simp
        nlinarith
      nlinarith
  have := R.mono key
  rw [R.of_isFloat h1f] at this
  linarith

/-- Scores of values within a factor `g`. -/
theorem score_near_le {g a b a' b' : ℝ} (hg : 1 ≤ g) (ha : Near g a' a) (hb : Near g b' b) :
    Spec.score a' b' ≤ Spec.score a b + (g ^ 2 - 1) := by
  obtain ⟨a0', a0, a1, a2⟩ := ha
  obtain ⟨b0', b0, b1, b2⟩ := hb
  have hg2 : 0 ≤ g ^ 2 - 1 := by nlinarith
  rcases eq_or_lt_of_le b0 with hb | hb
  · have : b' = 0 := le_antisymm (by rw [← hb] at b1; linarith) b0'
    rw [← hb, this]
    rcases eq_or_lt_of_le a0 with ha | ha
    · have : a' = 0 := le_antisymm (by rw [← ha] at a1; linarith) a0'
      rw [← ha, this]; linarith
    · have ha' : 0 < a' := by
        by_contra hn
        have : a' = 0 := le_antisymm (not_lt.1 hn) a0'
        rw [this] at a2; linarith
      unfold Spec.score
      rw [max_eq_left ha.le, max_eq_left ha'.le, zero_sub, zero_sub, neg_div, neg_div, div_self ha.ne',
        div_self ha'.ne']
      linarith
  have hb' : 0 < b' := by
    by_contra hn
    have : b' = 0 := le_antisymm (not_lt.1 hn) b0'
    rw [this] at b2; linarith
  rcases eq_or_lt_of_le a0 with ha | ha
  · have : a' = 0 := le_antisymm (by rw [← ha] at a1; linarith) a0'
    rw [← ha, this]
    unfold Spec.score
    rw [max_eq_right hb.le, max_eq_right hb'.le, sub_zero, sub_zero, div_self hb.ne', div_self hb'.ne']
    linarith
  have ha' : 0 < a' := by
    by_contra hn
    have : a' = 0 := le_antisymm (not_lt.1 hn) a0'
    rw [this] at a2; linarith
  have s1 : ∀ {x y : ℝ}, 0 < x → 0 < y → x ≤ y → Spec.score x y = 1 - x / y := by
    intro x y hx hy h
    unfold Spec.score
    rw [max_eq_right h]; field_simp
  have s2 : ∀ {x y : ℝ}, 0 < x → 0 < y → y ≤ x → Spec.score x y = y / x - 1 := by
    intro x y hx hy h
    unfold Spec.score
    rw [max_eq_left h]; field_simp
  -- the ratios
  have hr : a / b ≤ a' / b' * g ^ 2 := by
    rw [div_mul_eq_mul_div, div_le_div_iff₀ hb hb']
    have h1 : a * b' ≤ a' * g * (b * g) := mul_le_mul a2 b1 b0' (by positivity)
    linarith
  have hr0 : 0 < a / b := div_pos ha hb
  have hr0' : 0 < a' / b' := div_pos ha' hb'
  have inv1 : b / a = (a / b)⁻¹ := (inv_div a b).symm
  have inv2 : b' / a' = (a' / b')⁻¹ := (inv_div a' b').symm
  rcases le_total a' b' with h' | h'
  · have hle' : a' / b' ≤ 1 := (div_le_one hb').2 h'
    rw [s1 ha' hb' h']
    rcases le_total a b with h | h
    · rw [s1 ha hb h]
      nlinarith
    · rw [s2 ha hb h, inv1]
      generalize a / b = r at *
      generalize a' / b' = r' at *
      have : 2 - r ≤ r⁻¹ := by
        rw [← one_div, le_div_iff₀ hr0]
        nlinarith [sq_nonneg (r - 1)]
      nlinarith
  · have hge' : 1 ≤ a' / b' := (one_le_div hb').2 h'
    rw [s2 ha' hb' h', inv2]
    have hi' : (a' / b')⁻¹ ≤ 1 := inv_le_one_of_one_le₀ hge'
    rcases le_total a b with h | h
    · rw [s1 ha hb h]
      have : a / b ≤ 1 := (div_le_one hb).2 h
      linarith
    · have hge : 1 ≤ a / b := (one_le_div hb).2 h
      rw [s2 ha hb h, inv1]
      generalize a / b = r at *
      generalize a' / b' = r' at *
      have h1 : r'⁻¹ ≤ r⁻¹ * g ^ 2 := by
        rw [inv_mul_eq_div, le_div_iff₀ hr0, inv_mul_eq_div, div_le_iff₀ hr0']
        linarith
      have h2 : r⁻¹ ≤ 1 := inv_le_one_of_one_le₀ hge
      nlinarith

theorem Near.symm {g a' a : ℝ} (h : Near g a' a) : Near g a a' := ⟨h.2.1, h.1, h.2.2.2, h.2.2.1⟩

theorem score_near {g a b a' b' : ℝ} (hg : 1 ≤ g) (ha : Near g a' a) (hb : Near g b' b) :
    |Spec.score a' b' - Spec.score a b| ≤ g ^ 2 - 1 := by
  rw [abs_le]
  constructor
  · linarith [score_near_le hg ha.symm hb.symm]
  · linarith [score_near_le hg ha hb]

/-- The computed score of two numbers of the format. -/
theorem score_rounded (R : Rounding p) (hp : 1 ≤ p) {a b : ℝ} (ha : IsFloat p a) (hb : IsFloat p b)
    (ha0 : 0 ≤ a) (hb0 : 0 ≤ b) :
    ∃ s, score (fltOps R) (Flt.mk R a) (Flt.mk R b) = Flt.mk R s ∧ -1 ≤ s ∧ s ≤ 1 ∧
      |s - Spec.score a b| ≤ 2 * unit p ∧ (0 < s ↔ a < b) ∧ (s < 0 ↔ b < a) := by
  have hu := Rounding.unit_pos (p := p)
  have h1 : R.rnd 1 = 1 := R.of_isFloat (by simpa using Verif.Rounding.isFloat_zpow (p := p) 0)
  -- 1 - q for a quotient
  have key : ∀ {x y : ℝ}, IsFloat p x → IsFloat p y → 0 ≤ x → x < y →
      0 < R.rnd (1 - R.rnd (x / y)) ∧ R.rnd (1 - R.rnd (x / y)) ≤ 1 ∧
      |R.rnd (1 - R.rnd (x / y)) - (y - x) / y| ≤ 2 * unit p := by
    intro x y hx hy h0 h
    have hy0 : 0 < y := h0.trans_lt h
    have hq0 : 0 ≤ x / y := div_nonneg h0 hy0.le
    have hq1 : x / y < 1 := (div_lt_one hy0).2 h
    have hq := quotient_lt_one R hp hx hy h0 h
    have hqn := R.nonneg hq0
    have e1 := (R.rel_error (x / y)).1
    rw [abs_of_nonneg hq0] at e1
    have e2 := (R.rel_error (1 - R.rnd (x / y))).1
    have e2' := (R.rel_error (1 - R.rnd (x / y))).2
    rw [abs_of_nonneg (by linarith : 0 ≤ 1 - R.rnd (x / y))] at e2
    have hpos : 0 ≤ R.rnd (1 - R.rnd (x / y)) := R.nonneg (by linarith)
    refine ⟨?_, ?_, ?_⟩
    · rcases eq_or_lt_of_le hpos with h0 | h0
      · rw [← h0] at e2'
        simp only [zero_sub, abs_neg, abs_zero, mul_zero] at e2'
        rw [abs_of_nonneg (by linarith : 0 ≤ 1 - R.rnd (x / y))] at e2'
        linarith
      · exact h0
    · calc R.rnd (1 - R.rnd (x / y)) ≤ R.rnd 1 := R.mono (by linarith)
        _ = 1 := h1
    · rw [show (y - x) / y = 1 - x / y by field_simp]
      rw [abs_le] at e1 e2 ⊢
      constructor <;> nlinarith [e1.1, e1.2, e2.1, e2.2]
  rcases lt_trichotomy a b with h | h | h
  · obtain ⟨k1, k2, k3⟩ := key ha hb ha0 h
    refine ⟨R.rnd (1 - R.rnd (a / b)), ?_, by linarith, k2, ?_, ⟨fun _ => h, fun _ => k1⟩,
      ⟨fun h' => absurd h' (by linarith), fun h' => absurd h' (by linarith)⟩⟩
    · unfold score
      rw [if_pos (mk_lt.2 h)]
      rfl
    · unfold Spec.score
      rw [max_eq_right h.le]
      exact k3
  · subst h
    refine ⟨0, ?_, by norm_num, by norm_num, ?_, by simp, by simp⟩
    · unfold score
      rw [if_neg (lt_irrefl _), if_neg (lt_irrefl _)]
      rfl
    · unfold Spec.score
      simp [hu.le]
  · obtain ⟨k1, k2, k3⟩ := key hb ha hb0 h
    have hneg : R.rnd (R.rnd (b / a) - 1) = -R.rnd (1 - R.rnd (b / a)) := by
      rw [← R.neg]; congr 1; ring
    refine ⟨-R.rnd (1 - R.rnd (b / a)), ?_, by linarith, by linarith, ?_,
      ⟨fun h' => absurd h' (by linarith), fun h' => absurd h' (by linarith)⟩,
      ⟨fun _ => h, fun _ => by linarith⟩⟩
    · unfold score
      rw [if_neg (fun h' => absurd (mk_lt.1 h') (by linarith)), if_pos (mk_lt.2 h), ← hneg]
      rfl
    · unfold Spec.score
      rw [max_eq_left h.le, show (b - a) / a = -((a - b) / a) by ring]
      rw [abs_sub_comm] at k3
      rw [show -R.rnd (1 - R.rnd (b / a)) - -((a - b) / a) = (a - b) / a - R.rnd (1 - R.rnd (b / a)) by ring]
      exact k3

end Verif.Silhouette
