import Verif.Model.NonFinite
import Verif.Lemmas.AnyOrder
import Verif.Lemmas.TopValue
import Verif.Lemmas.Embed
import Verif.Props.Search

/-
Floating values without NaN and `-infinity` behave like `WithTop ℝ`.
-/

namespace Verif.NonFinite

open Verif.Sorting Verif.KDTree Verif.Search Verif.Buffer

section Any

variable {F : Type} [Field F] [LinearOrder F] [IsStrictOrderedRing F]

/-- All that the safety proofs use of floating comparisons. -/
theorem anyOrder_flt {eps : F} (he : 0 ≤ eps) : AnyOrder (eqFlt eps) := by
  constructor
  · intro a h
    cases a <;> revert h <;> change ¬ (Flt.lt _ _ = true) <;> simp [Flt.lt]
  · intro a b h
    simp only [eqFlt, decide_eq_true_eq] at h ⊢
    change Flt.le _ _ = true at h
    change Flt.le _ _ = true
    cases a <;> cases b <;> simp [Flt.gap, Flt.sub, Flt.abs, Flt.le] at h ⊢
    exact he

end Any

/-- The values other than NaN and `-infinity`. -/
def emb {F : Type} : WithTop F → Flt F
  | some v => .fin v
  | none => .pos

@[simp] theorem emb_coe {F : Type} (v : F) : emb (v : WithTop F) = .fin v := rfl
@[simp] theorem emb_top {F : Type} : emb (⊤ : WithTop F) = .pos := rfl

/-- Back from floating values; NaN and `-infinity` go to `⊤`. -/
def unemb {F : Type} : Flt F → WithTop F
  | .fin v => (v : WithTop F)
  | _ => ⊤

/-- Neither NaN nor `-infinity`. -/
def Above {F : Type} (a : Flt F) : Prop := a ≠ .nan ∧ a ≠ .neg

theorem emb_unemb {F : Type} {a : Flt F} (h : Above a) : emb (unemb a) = a := by
  cases a
  · exact absurd rfl h.1
  · exact absurd rfl h.2
  · rfl
  · rfl

section Field

variable {F : Type} [Field F] [LinearOrder F] [IsStrictOrderedRing F]

theorem emb_lt (a b : WithTop F) : emb a < emb b ↔ a < b := by
  change Flt.lt _ _ = true ↔ _
  cases a <;> cases b <;> simp [Flt.lt]

theorem emb_le (a b : WithTop F) : emb a ≤ emb b ↔ a ≤ b := by
  change Flt.le _ _ = true ↔ _
  cases a <;> cases b <;> simp [Flt.le]

theorem emb_eq (eps : F) (a b : WithTop F) : eqFlt eps (emb a) (emb b) = eqTop eps a b := by
  cases a <;> cases b <;> simp only [emb_coe, emb_top, eqFlt, Flt.gap, Flt.sub, Flt.abs, eqTop]
  · rfl
  · rfl
  · rfl
  · simp only [eqEps]
    congr 1
    change (Flt.le _ _ = true) = _
    simp [Flt.le]

theorem alike_emb (eps : F) : Alike (emb (F := F)) (eqTop eps) (eqFlt eps) := ⟨emb_lt, emb_eq eps⟩

/-- The gap to a cutting plane. -/
def gapTop : WithTop F → WithTop F → WithTop F
  | (a : F), (b : F) => ((|a - b| : F) : WithTop F)
  | _, _ => ⊤

theorem emb_gap (a : WithTop F) (b : F) : (emb a).gap (emb (b : WithTop F)) = emb (gapTop a b) := by
  cases a <;> rfl

theorem emb_add (a : WithTop F) (b : F) : (emb a).add (.fin b) = emb (a + (b : WithTop F)) := by
  cases a with
  | top => rfl
  | coe a => rw [← WithTop.coe_add]; rfl

theorem emb_add' (a b : WithTop F) : (emb a).add (emb b) = emb (a + b) := by
  cases b with
  | top => cases a <;> rfl
  | coe b => exact emb_add a b

theorem foldl_emb (L : List (WithTop F)) (acc : WithTop F) :
    (L.map emb).foldl Flt.add (emb acc) = emb (L.foldl (· + ·) acc) := by
  induction L generalizing acc with
  | nil => rfl
  | cons a L ih => rw [List.map_cons, List.foldl_cons, List.foldl_cons, emb_add', ih]

theorem le_foldl_add (L : List (WithTop F)) (acc : WithTop F) (h0 : ∀ e ∈ L, 0 ≤ e) :
    acc ≤ L.foldl (· + ·) acc ∧ (0 ≤ acc → ∀ e ∈ L, e ≤ L.foldl (· + ·) acc) := by
  induction L generalizing acc with
  | nil => exact ⟨le_refl _, by simp⟩
  | cons a L ih =>
    have ha := h0 a (by simp)
    obtain ⟨h1, h2⟩ := ih (acc + a) (fun e he => h0 e (by simp [he]))
    rw [List.foldl_cons]
    refine ⟨(le_add_of_nonneg_right ha).trans h1, ?_⟩
    intro hacc e he
    rcases List.mem_cons.1 he with rfl | he
    · exact (le_add_of_nonneg_left hacc).trans h1
    · exact h2 (add_nonneg hacc ha) e he

end Field

/-- The squared difference of a value and a finite value. -/
noncomputable def sqTop : WithTop ℝ → ℝ → WithTop ℝ
  | (a : ℝ), b => (((a - b) * (a - b) : ℝ) : WithTop ℝ)
  | _, _ => ⊤

theorem sqTop_nonneg (a : WithTop ℝ) (b : ℝ) : 0 ≤ sqTop a b := by
  cases a with
  | top => exact le_top
  | coe a => exact WithTop.coe_le_coe.2 (mul_self_nonneg _)

/-- The Euclidean distance of a sample without NaN and `-infinity` to a finite query is not NaN, and is at
least the difference in every feature. -/
theorem euclideanFlt_emb (nf : Nat) (y : Nat → WithTop ℝ) (q : Nat → ℝ) :
    ∃ d : WithTop ℝ, euclideanFlt (row nf (fun a => emb (y a))) (row nf (fun a => .fin (q a))) = emb d ∧
      ∀ a < nf, gapTop (y a) (q a) ≤ d := by
  have hz : List.zipWith (fun a b => (Flt.sub a b).sq) (row nf (fun a => emb (y a)))
      (row nf (fun a => Flt.fin (q a))) = ((List.range nf).map (fun a => sqTop (y a) (q a))).map emb := by
    simp only [row, List.zipWith_map, List.zipWith_self, List.map_map]
    apply List.map_congr_left
    intro a _
    simp only [Function.comp_apply]
    cases y a <;> rfl
  unfold euclideanFlt
  rw [hz]
  have h0 : (Flt.fin (0 : ℝ)) = emb 0 := rfl
  rw [h0, foldl_emb]
  obtain ⟨h1, h2⟩ := le_foldl_add ((List.range nf).map (fun a => sqTop (y a) (q a))) 0 (by
    intro e he
    obtain ⟨a, _, rfl⟩ := List.mem_map.1 he
    exact sqTop_nonneg _ _)
  generalize List.foldl (· + ·) 0 ((List.range nf).map (fun a => sqTop (y a) (q a))) = t at h1 h2
  cases t with
  | top => exact ⟨⊤, rfl, fun a _ => le_top⟩
  | coe t =>
    have ht : 0 ≤ t := by exact_mod_cast h1
    refine ⟨(Real.sqrt t : ℝ), by simp [Flt.sqrt, not_lt.2 ht], ?_⟩
    intro a ha
    have h3 := h2 (le_refl _) (sqTop (y a) (q a)) (List.mem_map.2 ⟨a, List.mem_range.2 ha, rfl⟩)
    cases hy : y a with
    | top => rw [hy] at h3; exact absurd h3 (by simp [sqTop])
    | coe v =>
      rw [hy] at h3
      have h4 : (v - q a) * (v - q a) ≤ t := WithTop.coe_le_coe.1 h3
      refine WithTop.coe_le_coe.2 ?_
      rw [← Real.sqrt_mul_self_eq_abs]
      exact Real.sqrt_le_sqrt h4

/-- Pruning on values that may be `+infinity`, for a finite query. -/
theorem pruneOk_top {eps : ℝ} (he : 0 ≤ eps) {nf : Nat} {y : Nat → Nat → WithTop ℝ} {q : Nat → ℝ}
    {dist : Nat → WithTop ℝ} (hd : ∀ i, ∀ a < nf, gapTop (y i a) (q a) ≤ dist i) :
    PruneOk y (fun a => (q a : WithTop ℝ)) gapTop (candAll dist)
      (fun a i p => a < nf ∧ y i a ≤ y p a + (2 * eps : ℝ))
      (fun a p i => a < nf ∧ y p a ≤ y i a + (2 * eps : ℝ)) (fun d d' => d' ≤ d + (2 * eps : ℝ)) := by
  intro a p i d f hcd hs hf
  have hdi : d = dist i := (Option.some.inj hcd).symm
  subst hdi
  have hself : dist i ≤ dist i + (2 * eps : ℝ) := le_add_eps (by linarith) _
  refine max_le hself (hf.trans ?_)
  cases hdist : dist i with
  | top => simp
  | coe d =>
    have hco : a < nf → ∃ v : ℝ, y i a = v ∧ |v - q a| ≤ d := by
      intro ha
      have h1 := hd i a ha
      rw [hdist] at h1
      cases hy : y i a with
      | top => rw [hy] at h1; exact absurd h1 (by simp [gapTop])
      | coe v => rw [hy] at h1; exact ⟨v, rfl, WithTop.coe_le_coe.1 h1⟩
    rcases hs with ⟨h1, h2, h3⟩ | ⟨h1, h2, h3⟩
    · obtain ⟨v, hv, h4⟩ := hco h2
      rw [hv] at h3
      cases hp : y p a with
      | top => rw [hp, ← WithTop.coe_add] at h3; exact absurd h3 (not_le.2 (WithTop.coe_lt_top _))
      | coe w =>
        rw [hp] at h1 h3
        have h1' : q a < w := WithTop.coe_lt_coe.1 h1
        have h3' : w ≤ v + 2 * eps := by exact_mod_cast h3
        rw [← WithTop.coe_add]
        refine WithTop.coe_le_coe.2 ?_
        rw [abs_of_pos (by linarith)]
        linarith [le_abs_self (v - q a)]
    · obtain ⟨v, hv, h4⟩ := hco h2
      rw [hv] at h3
      cases hp : y p a with
      | top => rw [hp] at h1; exact absurd h1 (by simp)
      | coe w =>
        rw [hp] at h1 h3
        have h1' : w ≤ q a := WithTop.coe_le_coe.1 h1
        have h3' : v ≤ w + 2 * eps := by exact_mod_cast h3
        rw [← WithTop.coe_add]
        refine WithTop.coe_le_coe.2 ?_
        rw [abs_of_nonpos (by linarith)]
        linarith [neg_abs_le (v - q a)]

end Verif.NonFinite
