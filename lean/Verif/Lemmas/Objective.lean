import Verif.Lemmas.Hamerly
import Verif.Props.Distances
import Mathlib.Algebra.BigOperators.Ring.Finset
import Mathlib.Algebra.Order.BigOperators.Group.Finset
import Mathlib.Algebra.Module.Pi
import Mathlib.Algebra.Order.Module.Defs
import Mathlib.Analysis.Real.Sqrt
import Mathlib.Tactic.FieldSimp
import Mathlib.Tactic.Positivity

/-
The k-means objective decreases when centroids move to the means of their samples and samples to
their nearest centroids.
-/

namespace Verif.KMeans

set_option linter.unusedSectionVars false

variable {nf : Nat}

/-- The Euclidean distance of rows of `nf` elements. -/
noncomputable def edist (x c : Fin nf → ℝ) : ℝ := Real.sqrt (sq x c)

theorem sq_nonneg' (x c : Fin nf → ℝ) : 0 ≤ sq x c := Finset.sum_nonneg fun _ _ => sq_nonneg _

theorem zipWith_ofFn_sum (g : ℝ → ℝ → ℝ) : ∀ {n : Nat} (x c : Fin n → ℝ),
    (List.zipWith g (List.ofFn x) (List.ofFn c)).sum = ∑ f, g (x f) (c f)
  | 0, _, _ => by simp
  | n + 1, x, c => by
    rw [List.ofFn_succ, List.ofFn_succ, List.zipWith_cons_cons, List.sum_cons, zipWith_ofFn_sum g,
      Fin.sum_univ_succ]

/-- `edist` is what the modelled `euclidean_distance` computes. -/
theorem euclidean_ofFn (x c : Fin nf → ℝ) :
    Distances.euclidean (List.ofFn x) (List.ofFn c) = some (edist x c) := by
  rw [Distances.euclidean_eq (by simp), zipWith_ofFn_sum, edist, sq]
  simp only [pow_two]

theorem edist_isDist : IsDist (edist (nf := nf)) := by
  refine ⟨fun a b => Real.sqrt_nonneg _, ?_, ?_⟩
  · intro a b
    have := Distances.C56_euclidean.symm (List.ofFn a) (List.ofFn b) (by simp)
    rw [euclidean_ofFn, euclidean_ofFn] at this
    exact Option.some.inj this
  · intro a b c
    exact Distances.C56_euclidean.triangle (List.ofFn a) (List.ofFn b) (List.ofFn c) (by simp)
      (by simp) _ _ _ (euclidean_ofFn a c) (euclidean_ofFn a b) (euclidean_ofFn b c)

theorem edist_le_iff (x c x' c' : Fin nf → ℝ) : edist x c ≤ edist x' c' ↔ sq x c ≤ sq x' c' :=
  Real.sqrt_le_sqrt_iff (sq_nonneg' _ _)

/-! ### the mean minimises the sum of squares -/

theorem sum_sq_expand (c : ℝ) : ∀ (l : List ℝ),
    (l.map fun a => (a - c) ^ 2).sum = (l.map fun a => a ^ 2).sum - 2 * c * l.sum + l.length * c ^ 2
  | [] => by simp
  | a :: l => by
    simp only [List.map_cons, List.sum_cons, sum_sq_expand c l, List.length_cons]
    push_cast
    ring

theorem mean_le_one (l : List ℝ) (hl : l ≠ []) (c : ℝ) :
    (l.map fun a => (a - (l.length : ℝ)⁻¹ * l.sum) ^ 2).sum ≤ (l.map fun a => (a - c) ^ 2).sum := by
  have hn : (0 : ℝ) < l.length := by
    have := List.length_pos_iff.2 hl
    exact_mod_cast this
  rw [sum_sq_expand, sum_sq_expand]
  have : (l.length : ℝ) * (c - (l.length : ℝ)⁻¹ * l.sum) ^ 2 =
      (- 2 * c * l.sum + l.length * c ^ 2) -
        (- 2 * ((l.length : ℝ)⁻¹ * l.sum) * l.sum + l.length * ((l.length : ℝ)⁻¹ * l.sum) ^ 2) := by
    field_simp
    ring
  have h2 : 0 ≤ (l.length : ℝ) * (c - (l.length : ℝ)⁻¹ * l.sum) ^ 2 := by positivity
  linarith

theorem sum_apply' (f : Fin nf) : ∀ (l : List (Fin nf → ℝ)), l.sum f = (l.map fun v => v f).sum
  | [] => rfl
  | v :: l => by simp [sum_apply' f l]

theorem sum_comm' (g : (Fin nf → ℝ) → Fin nf → ℝ) : ∀ (l : List (Fin nf → ℝ)),
    (l.map fun v => ∑ f, g v f).sum = ∑ f, (l.map fun v => g v f).sum
  | [] => by simp
  | v :: l => by simp [sum_comm' g l, Finset.sum_add_distrib]

/-- The sum of squared distances to the mean is at most that to any other point. -/
theorem mean_le (l : List (Fin nf → ℝ)) (hl : l ≠ []) (c : Fin nf → ℝ) :
    (l.map fun v => sq v (mean (K := ℝ) l)).sum ≤ (l.map fun v => sq v c).sum := by
  simp only [sq]
  rw [sum_comm' (fun v f => (v f - mean (K := ℝ) l f) ^ 2), sum_comm' (fun v f => (v f - c f) ^ 2)]
  refine Finset.sum_le_sum fun f _ => ?_
  have := mean_le_one (l.map fun v => v f) (by simpa using hl) (c f)
  simp only [List.map_map, List.length_map] at this
  have e : mean (K := ℝ) l f = (l.length : ℝ)⁻¹ * (l.map fun v => v f).sum := by
    rw [mean, Pi.smul_apply, sum_apply', smul_eq_mul]
  rw [e]
  exact this

/-- Regrouping a sum over samples by cluster. -/
theorem sum_by_cluster {V : Type} (k : Nat) (g : V → Nat → ℝ) : ∀ (ps : List (V × Nat)),
    (∀ p ∈ ps, p.2 < k) →
    (ps.map fun p => g p.1 p.2).sum = ∑ j ∈ Finset.range k, ((members ps j).map fun x => g x j).sum
  | [], _ => by simp [members_nil]
  | (x, i) :: ps, h => by
    have hi : i < k := h _ List.mem_cons_self
    have ih := sum_by_cluster k g ps (fun p hp => h p (List.mem_cons_of_mem _ hp))
    have e : ∀ j, ((members ((x, i) :: ps) j).map fun x => g x j).sum =
        (if i = j then g x j else 0) + ((members ps j).map fun x => g x j).sum := by
      intro j
      rw [members_cons]
      split <;> simp
    rw [List.map_cons, List.sum_cons, ih]
    simp only [e]
    rw [Finset.sum_add_distrib, Finset.sum_ite_eq]
    simp [hi]

/-- The cost of an assignment. -/
noncomputable def cost (cs : List (Fin nf → ℝ)) (ps : List ((Fin nf → ℝ) × Nat)) : ℝ :=
  (ps.map fun p => sq p.1 (cs.getD p.2 0)).sum

theorem cost_means (cs cs' : List (Fin nf → ℝ)) (ps : List ((Fin nf → ℝ) × Nat))
    (hp : ∀ p ∈ ps, p.2 < cs.length)
    (h : ∀ j, j < cs.length → members ps j ≠ [] → cs'.getD j 0 = mean (K := ℝ) (members ps j)) :
    cost cs' ps ≤ cost cs ps := by
  rw [cost, cost, sum_by_cluster cs.length (fun x j => sq x (cs'.getD j 0)) ps hp,
    sum_by_cluster cs.length (fun x j => sq x (cs.getD j 0)) ps hp]
  refine Finset.sum_le_sum fun j hj => ?_
  by_cases hm : members ps j = []
  · simp [hm]
  · rw [h j (Finset.mem_range.1 hj) hm]
    exact mean_le _ hm _

theorem min_sq (cs : List (Fin nf → ℝ)) (x c : Fin nf → ℝ) (hc : c ∈ cs)
    (h : ∀ c' ∈ cs, sq x c ≤ sq x c') : ((cs.map (sq x)).min?).getD 0 = sq x c := by
  have : (cs.map (sq x)).min? = some (sq x c) := by
    rw [List.min?_eq_some_iff]
    refine ⟨List.mem_map.2 ⟨c, hc, rfl⟩, ?_⟩
    intro b hb
    obtain ⟨c', hc', rfl⟩ := List.mem_map.1 hb
    exact h c' hc'
  rw [this]; rfl

theorem min_sq_le (cs : List (Fin nf → ℝ)) (x c : Fin nf → ℝ) (hc : c ∈ cs) :
    ((cs.map (sq x)).min?).getD 0 ≤ sq x c := by
  cases h : (cs.map (sq x)).min? with
  | none => simp at h; subst h; simp at hc
  | some m =>
    rw [List.min?_eq_some_iff] at h
    exact h.2 _ (List.mem_map.2 ⟨c, hc, rfl⟩)

theorem objective_eq_cost (xs cs : List (Fin nf → ℝ)) (a : List Nat) (hl : a.length = xs.length)
    (h : ∀ p ∈ xs.zip a, Nearest edist cs p.1 p.2) : objective xs cs = cost cs (xs.zip a) := by
  have e : xs = (xs.zip a).map Prod.fst := (List.map_fst_zip hl.ge).symm
  rw [objective, cost]
  conv_lhs => rw [e]
  rw [List.map_map]
  congr 1
  apply List.map_congr_left
  intro p hp
  obtain ⟨c, hc, hmin⟩ := h p hp
  simp only [Function.comp]
  rw [min_sq cs p.1 c (List.mem_of_getElem? hc) (fun c' hc' => (edist_le_iff _ _ _ _).1 (hmin c' hc')),
    List.getD_eq_getElem?_getD, hc]
  rfl

theorem objective_le_cost (xs cs : List (Fin nf → ℝ)) (a : List Nat) (hl : a.length = xs.length)
    (h : ∀ p ∈ xs.zip a, p.2 < cs.length) : objective xs cs ≤ cost cs (xs.zip a) := by
  have e : xs = (xs.zip a).map Prod.fst := (List.map_fst_zip hl.ge).symm
  rw [objective, cost]
  conv_lhs => rw [e]
  rw [List.map_map]
  apply List.sum_le_sum
  intro p hp
  simp only [Function.comp]
  apply min_sq_le
  have := h p hp
  rw [List.getD_eq_getElem?_getD, List.getElem?_eq_getElem this]
  exact List.getElem_mem this

/-- Moving every centroid that has samples to the mean of its samples does not increase the
objective. -/
theorem objective_means (xs cs cs' : List (Fin nf → ℝ)) (a : List Nat) (hl : a.length = xs.length)
    (hlen : cs'.length = cs.length) (h : ∀ p ∈ xs.zip a, Nearest edist cs p.1 p.2)
    (hm : ∀ j, j < cs.length → members (xs.zip a) j ≠ [] →
      cs'[j]? = some (mean (K := ℝ) (members (xs.zip a) j))) :
    objective xs cs' ≤ objective xs cs := by
  have hp : ∀ p ∈ xs.zip a, p.2 < cs.length := by
    intro p hp
    obtain ⟨c, hc, _⟩ := h p hp
    exact (List.getElem?_eq_some_iff.1 hc).1
  rw [objective_eq_cost xs cs a hl h]
  refine (objective_le_cost xs cs' a hl (by rw [hlen]; exact hp)).trans ?_
  apply cost_means cs cs' _ hp
  intro j hj hne
  rw [List.getD_eq_getElem?_getD, hm j hj hne]
  rfl

/-! ### everything stays in a box -/

/-- All coordinates are at most `B` in absolute value. -/
def InBox (B : ℝ) (v : Fin nf → ℝ) : Prop := ∀ f, |v f| ≤ B

theorem edist_box {B : ℝ} {x c : Fin nf → ℝ} (hx : InBox B x) (hc : InBox B c) :
    edist x c ≤ 2 * B * nf := by
  by_cases h0 : nf = 0
  · subst h0
    simp [edist, sq]
  have hB : 0 ≤ B := (abs_nonneg _).trans (hx ⟨0, Nat.pos_of_ne_zero h0⟩)
  have hn : (1 : ℝ) ≤ nf := by exact_mod_cast Nat.one_le_iff_ne_zero.2 h0
  apply Real.sqrt_le_iff.2
  refine ⟨by positivity, ?_⟩
  have h1 : sq x c ≤ ∑ _f : Fin nf, (2 * B) ^ 2 := by
    refine Finset.sum_le_sum fun f _ => ?_
    rw [sq_le_sq, abs_of_nonneg (by positivity : (0 : ℝ) ≤ 2 * B)]
    have := abs_sub (x f) (c f)
    linarith [hx f, hc f]
  rw [Finset.sum_const, Finset.card_univ, Fintype.card_fin, nsmul_eq_mul] at h1
  refine h1.trans ?_
  have : (0 : ℝ) ≤ (2 * B) ^ 2 * nf * (nf - 1) := by
    have : (0 : ℝ) ≤ (nf : ℝ) - 1 := by linarith
    positivity
  nlinarith

theorem abs_sum_le (B : ℝ) (f : Fin nf) : ∀ (l : List (Fin nf → ℝ)), (∀ v ∈ l, InBox B v) →
    |l.sum f| ≤ l.length * B
  | [], _ => by simp
  | v :: l, h => by
    rw [List.sum_cons, Pi.add_apply]
    have h1 := abs_sum_le B f l (fun w hw => h w (List.mem_cons_of_mem _ hw))
    have h2 := h v List.mem_cons_self f
    have h3 := abs_add_le (v f) (l.sum f)
    push_cast [List.length_cons]
    linarith

theorem mean_box (B : ℝ) (l : List (Fin nf → ℝ)) (hl : l ≠ []) (h : ∀ v ∈ l, InBox B v) :
    InBox B (mean (K := ℝ) l) := by
  intro f
  have hn : (0 : ℝ) < l.length := by exact_mod_cast List.length_pos_iff.2 hl
  rw [mean, Pi.smul_apply, smul_eq_mul, abs_mul, abs_of_nonneg (by positivity), inv_mul_le_iff₀ hn]
  exact abs_sum_le B f l h

theorem members_mem {V : Type} {ps : List (V × Nat)} {j : Nat} {v : V} (h : v ∈ members ps j) :
    (v, j) ∈ ps := by
  simp only [members, List.mem_map, List.mem_filter, decide_eq_true_eq] at h
  obtain ⟨p, ⟨hp, rfl⟩, rfl⟩ := h
  exact hp

end Verif.KMeans
