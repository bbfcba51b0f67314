import Verif.Model.AliasRounded
import Verif.Lemmas.Random
import Verif.Lemmas.Rounding
import Mathlib.Algebra.Order.Ring.Pow

/-
Invariant of the alias method under rounding: how far the open cells drift from their exact total.
-/

namespace Verif.Random

open Verif.Rounding (Rounding IsFloat unit isFloat_zero isFloat_zpow two_zpow_pos)

/-! ### the model without rounding -/

section Exact

variable {K : Type} [Field K] [LinearOrder K]

theorem pairUpR_id : ∀ (fuel : Nat) (st : AliasState K), pairUpR id fuel st = pairUp fuel st := by
  intro fuel
  induction fuel with
  | zero => intro st; rfl
  | succ fuel ih =>
    intro st
    rw [pairUpR, pairUp]
    simp only [id_eq, ih]
    cases st.small <;> cases st.large <;> rfl

theorem sumR_id (w : List K) : sumR id w = w.sum := by
  rw [sumR, List.sum_eq_foldl]; rfl

/-- Without rounding the model is the one of Model/Random.lean. -/
theorem aliasInitR_id (w : List K) : aliasInitR id w = aliasInit w := by
  simp only [aliasInitR, aliasInit, fakeR, normR, sumR_id, pairUpR_id, id_eq]

end Exact

/-! ### a step of the main loop for an arbitrary new value -/

section Step

variable {K : Type} [Field K] [LinearOrder K] [IsStrictOrderedRing K]

/-- What the table gives to `i` once completed, with the surplus of an open cell. -/
def credit (n : Nat) (st : AliasState K) (i : Nat) : K :=
  mass n (pDone st) (fun j => st.aliases.getD j 0) i +
    (if i ∈ st.small ++ st.large then st.fake.getD i 0 - 1 else 0)

/-- Surplus of the open cells. -/
def surplus (st : AliasState K) : K :=
  ((st.small ++ st.large).map (fun i => st.fake.getD i 0 - 1)).sum

/-- The state after one iteration that pairs `s` with `l`, with new value `v`. -/
def stepSt (st : AliasState K) (s l : Nat) (small large : List Nat) (v : K) : AliasState K :=
  { fake := st.fake.set l v
    small := if v < 1 then l :: small else small
    large := if v < 1 then large else l :: large
    prob := st.prob.set s (st.fake.getD s 0)
    aliases := st.aliases.set s l }

structure Shape (n : Nat) (st : AliasState K) : Prop where
  lfake : st.fake.length = n
  lprob : st.prob.length = n
  lals : st.aliases.length = n
  nodup : (st.small ++ st.large).Nodup
  lt : ∀ i ∈ st.small ++ st.large, i < n

variable {n : Nat} {st : AliasState K} {s l : Nat} {small large : List Nat}

theorem Shape.parts (h : Shape n st) (hs : st.small = s :: small) (hl : st.large = l :: large) :
    s ≠ l ∧ s ∉ small ∧ s ∉ large ∧ l ∉ small ∧ l ∉ large ∧ (small ++ large).Nodup := by
  have nodup := h.nodup
  rw [hs, hl] at nodup
  simp only [List.cons_append, List.nodup_cons, List.nodup_append, List.mem_append,
    List.mem_cons] at nodup ⊢
  obtain ⟨a, b, ⟨c, d⟩, e⟩ := nodup
  exact ⟨fun h => a (Or.inr (Or.inl h)), fun h => a (Or.inl h), fun h => a (Or.inr (Or.inr h)),
    fun h => e _ h l (Or.inl rfl) rfl, c, b, d, fun x hx y hy => e x hx y (Or.inr hy)⟩

theorem stepSt_perm (st : AliasState K) (s l : Nat) (small large : List Nat) (v : K) :
    ((stepSt st s l small large v).small ++ (stepSt st s l small large v).large).Perm
      (l :: (small ++ large)) := by
  simp only [stepSt]
  split
  · simp
  · exact List.perm_middle

theorem stepSt_mem (st : AliasState K) (s l : Nat) (small large : List Nat) (v : K) (i : Nat) :
    i ∈ (stepSt st s l small large v).small ++ (stepSt st s l small large v).large ↔
      i = l ∨ i ∈ small ∨ i ∈ large := by
  rw [(stepSt_perm st s l small large v).mem_iff]; simp

theorem open_mem (hs : st.small = s :: small) (hl : st.large = l :: large) (i : Nat) :
    i ∈ st.small ++ st.large ↔ i = s ∨ i = l ∨ i ∈ small ∨ i ∈ large := by
  rw [hs, hl]; simp [or_left_comm]

theorem open_perm (hs : st.small = s :: small) (hl : st.large = l :: large) :
    (st.small ++ st.large).Perm (s :: l :: (small ++ large)) := by
  rw [hs, hl, List.cons_append, List.perm_cons]
  exact List.perm_middle

theorem Shape.step (h : Shape n st) (hs : st.small = s :: small) (hl : st.large = l :: large) (v : K) :
    Shape n (stepSt st s l small large v) := by
  obtain ⟨n1, n2, n3, n4, n5, n6⟩ := h.parts hs hl
  refine ⟨by simp [stepSt, h.lfake], by simp [stepSt, h.lprob], by simp [stepSt, h.lals], ?_, ?_⟩
  · rw [(stepSt_perm st s l small large v).nodup_iff, List.nodup_cons]
    exact ⟨by simp [n4, n5], n6⟩
  · intro i hi
    rw [stepSt_mem] at hi
    apply h.lt
    rw [open_mem hs hl]
    tauto

theorem Shape.fake_step (h : Shape n st) (hl : st.large = l :: large) (v : K) (i : Nat) :
    (stepSt st s l small large v).fake.getD i 0 = if i = l then v else st.fake.getD i 0 :=
  getD_set _ _ _ _ _ (by rw [h.lfake]; exact h.lt l (by simp [hl]))

theorem Shape.prob_step (h : Shape n st) (hs : st.small = s :: small) (v : K) (i : Nat) :
    (stepSt st s l small large v).prob.getD i 0 =
      if i = s then st.fake.getD s 0 else st.prob.getD i 0 :=
  getD_set _ _ _ _ _ (by rw [h.lprob]; exact h.lt s (by simp [hs]))

theorem Shape.alias_step (h : Shape n st) (hs : st.small = s :: small) (v : K) (i : Nat) :
    (stepSt st s l small large v).aliases.getD i 0 = if i = s then l else st.aliases.getD i 0 :=
  getD_set _ _ _ _ _ (by rw [h.lals]; exact h.lt s (by simp [hs]))

theorem Shape.surplus_step (h : Shape n st) (hs : st.small = s :: small) (hl : st.large = l :: large)
    (v : K) : surplus (stepSt st s l small large v) =
      surplus st + (v - (st.fake.getD l 0 + (st.fake.getD s 0 - 1))) := by
  obtain ⟨n1, n2, n3, n4, n5, n6⟩ := h.parts hs hl
  unfold surplus
  rw [((stepSt_perm st s l small large v).map _).sum_eq, ((open_perm hs hl).map _).sum_eq]
  simp only [List.map_cons, List.sum_cons]
  have e1 : (small ++ large).map (fun i => (stepSt st s l small large v).fake.getD i 0 - 1) =
      (small ++ large).map (fun i => st.fake.getD i 0 - 1) := by
    apply List.map_congr_left
    intro i hi
    rw [h.fake_step hl, if_neg]
    rintro rfl
    rcases List.mem_append.1 hi with h | h
    · exact n4 h
    · exact n5 h
  rw [e1, h.fake_step hl, if_pos rfl]
  ring

/-- Only the credit of `l` changes, by the difference of `v` from the exact value. -/
theorem Shape.credit_step (h : Shape n st) (hs : st.small = s :: small) (hl : st.large = l :: large)
    (v : K) (i : Nat) : credit n (stepSt st s l small large v) i =
      credit n st i + if i = l then v - (st.fake.getD l 0 + (st.fake.getD s 0 - 1)) else 0 := by
  obtain ⟨n1, n2, n3, n4, n5, n6⟩ := h.parts hs hl
  have hsn : s < n := h.lt s (by simp [hs])
  have hpd : ∀ j, pDone (stepSt st s l small large v) j =
      if j = s then st.fake.getD s 0 else pDone st j := by
    intro j
    unfold pDone
    rw [h.prob_step hs]
    simp only [stepSt_mem, open_mem hs hl]
    by_cases e : j = s
    · subst e
      simp [n1, n2, n3]
    · simp [e]
  have hpds : pDone st s = 1 := by simp [pDone, hs]
  unfold credit mass
  simp only [hpd, h.alias_step hs]
  rw [sum_change hsn (fun j => (if j = i then pDone st j else 0) +
    if st.aliases.getD j 0 = i then 1 - pDone st j else 0) _ ?_]
  · simp only [if_true, hpds, stepSt_mem, open_mem hs hl]
    rw [h.fake_step hl]
    by_cases c1 : s = i
    · subst c1
      simp only [true_or, if_true, n1, n2, n3, or_self, if_false]
      rw [if_neg (Ne.symm n1)]
      split <;> ring
    · by_cases c2 : l = i
      · subst c2
        simp only [true_or, or_true, if_true, c1, if_false]
        split <;> ring
      · simp only [c1, c2, Ne.symm c1, Ne.symm c2, false_or, if_false]
        simp
  · intro j hj
    simp [hj]

end Step

/-! ### the invariant -/

variable {p : Nat}

structure RInv (p n : Nat) (M : ℝ) (f0 : Nat → ℝ) (st : AliasState ℝ) : Prop where
  shape : Shape n st
  float : ∀ i ∈ st.small ++ st.large, IsFloat p (st.fake.getD i 0)
  small_lt : ∀ i ∈ st.small, 0 ≤ st.fake.getD i 0 ∧ st.fake.getD i 0 < 1
  large_ge : ∀ i ∈ st.large, 1 ≤ st.fake.getD i 0 ∧ st.fake.getD i 0 ≤ M
  drift : |surplus st - ∑ i ∈ Finset.range n, (f0 i - 1)| ≤
    (n - (st.small ++ st.large).length : ℝ) * (unit p * (1 + M))
  credit_le : ∑ i ∈ Finset.range n, |credit n st i - f0 i| ≤
    (n - (st.small ++ st.large).length : ℝ) * (unit p * (1 + M))
  zopen : ∀ i ∈ st.small ++ st.large, st.fake.getD i 0 ≤ f0 i
  closed : ∀ j, j < n → j ∉ st.small ++ st.large → 0 ≤ st.prob.getD j 0 ∧ st.prob.getD j 0 < 1 ∧
    st.prob.getD j 0 ≤ f0 j ∧ st.aliases.getD j 0 < n ∧ 1 ≤ f0 (st.aliases.getD j 0)

/-- The value computed for the paired large cell. -/
theorem value_bounds (R : Rounding p) {fs fl M : ℝ} (hs : 0 ≤ fs ∧ fs < 1) (hl : 1 ≤ fl ∧ fl ≤ M)
    (hf : IsFloat p fl) :
    0 ≤ R.rnd (fl + R.rnd (fs - 1)) ∧ R.rnd (fl + R.rnd (fs - 1)) ≤ fl ∧
      |R.rnd (fl + R.rnd (fs - 1)) - (fl + (fs - 1))| ≤ unit p * (1 + M) := by
  have hu := Rounding.unit_pos (p := p)
  have h1 : R.rnd (-1) = -1 := by
    rw [R.neg, R.of_isFloat (by simpa using isFloat_zpow (p := p) 0)]
  have t1 : -1 ≤ R.rnd (fs - 1) := by
    rw [← h1]; exact R.mono (by linarith)
  have t2 : R.rnd (fs - 1) ≤ 0 := by
    rw [← R.zero]; exact R.mono (by linarith)
  have e1 := (R.rel_error (fs - 1)).1
  rw [abs_of_nonpos (by linarith : fs - 1 ≤ 0)] at e1
  have e2 := (R.rel_error (fl + R.rnd (fs - 1))).1
  rw [abs_of_nonneg (by linarith : 0 ≤ fl + R.rnd (fs - 1))] at e2
  refine ⟨R.nonneg (by linarith), ?_, ?_⟩
  · calc R.rnd (fl + R.rnd (fs - 1)) ≤ R.rnd fl := R.mono (by linarith)
      _ = fl := R.of_isFloat hf
  · have e3 : unit p * (fl + R.rnd (fs - 1)) ≤ unit p * M :=
      mul_le_mul_of_nonneg_left (by linarith) hu.le
    have e4 : unit p * -(fs - 1) ≤ unit p * 1 := mul_le_mul_of_nonneg_left (by linarith) hu.le
    rw [abs_le] at e1 e2 ⊢
    constructor <;> linarith [e1.1, e1.2, e2.1, e2.2]

theorem RInv.step (R : Rounding p) {n : Nat} {M : ℝ} {f0 : Nat → ℝ} {st : AliasState ℝ}
    (h : RInv p n M f0 st) {s l : Nat} {small large : List Nat} (hs : st.small = s :: small)
    (hl : st.large = l :: large) :
    RInv p n M f0
      (stepSt st s l small large (R.rnd (st.fake.getD l 0 + R.rnd (st.fake.getD s 0 - 1)))) := by
  obtain ⟨n1, n2, n3, n4, n5, n6⟩ := h.shape.parts hs hl
  have ms := open_mem hs hl
  have hfs := h.small_lt s (by simp [hs])
  have hfl := h.large_ge l (by simp [hl])
  obtain ⟨v0, v1, v2⟩ := value_bounds R hfs hfl (h.float l (by simp [hl]))
  have vf := R.isFloat (st.fake.getD l 0 + R.rnd (st.fake.getD s 0 - 1))
  generalize R.rnd (st.fake.getD l 0 + R.rnd (st.fake.getD s 0 - 1)) = v at *
  have hln : l < n := h.shape.lt l (by simp [hl])
  have hlen : ((stepSt st s l small large v).small ++ (stepSt st s l small large v).large).length + 1 =
      (st.small ++ st.large).length := by
    rw [(stepSt_perm st s l small large v).length_eq, (open_perm hs hl).length_eq]
    simp
  have hlen' : (((stepSt st s l small large v).small ++
      (stepSt st s l small large v).large).length : ℝ) + 1 = (st.small ++ st.large).length := by
    exact_mod_cast hlen
  have hold : ∀ i, i ∈ (stepSt st s l small large v).small ++ (stepSt st s l small large v).large →
      i ≠ l → i ∈ st.small ++ st.large := by
    intro i hi e
    rw [stepSt_mem] at hi
    rw [ms]
    tauto
  refine ⟨h.shape.step hs hl v, ?_, ?_, ?_, ?_, ?_, ?_, ?_⟩
  · intro i hi
    rw [h.shape.fake_step hl]
    split
    · exact vf
    · exact h.float i (hold i hi (by assumption))
  · intro i hi
    rw [h.shape.fake_step hl]
    split
    · rename_i e
      subst e
      simp only [stepSt] at hi
      split at hi
      · rename_i hv
        exact ⟨v0, hv⟩
      · exact absurd hi n4
    · rename_i e
      apply h.small_lt
      rw [hs]
      simp only [stepSt] at hi
      split at hi
      · rcases List.mem_cons.1 hi with h | h
        · exact absurd h e
        · simp [h]
      · simp [hi]
  · intro i hi
    rw [h.shape.fake_step hl]
    split
    · rename_i e
      subst e
      simp only [stepSt] at hi
      split at hi
      · exact absurd hi n5
      · rename_i hv
        exact ⟨not_lt.1 hv, v1.trans hfl.2⟩
    · rename_i e
      apply h.large_ge
      rw [hl]
      simp only [stepSt] at hi
      split at hi
      · simp [hi]
      · rcases List.mem_cons.1 hi with h | h
        · exact absurd h e
        · simp [h]
  · rw [h.shape.surplus_step hs hl]
    have := h.drift
    rw [← hlen'] at this
    refine le_trans (b := |surplus st - ∑ i ∈ Finset.range n, (f0 i - 1)| +
      |v - (st.fake.getD l 0 + (st.fake.getD s 0 - 1))|) ?_ ?_
    · refine le_trans (le_of_eq ?_) (abs_add_le _ _)
      congr 1; ring
    · linarith
  · have := h.credit_le
    rw [← hlen'] at this
    have e : ∑ i ∈ Finset.range n, |credit n (stepSt st s l small large v) i - f0 i| ≤
        ∑ i ∈ Finset.range n, (|credit n st i - f0 i| +
          if i = l then |v - (st.fake.getD l 0 + (st.fake.getD s 0 - 1))| else 0) := by
      apply Finset.sum_le_sum
      intro i _
      rw [h.shape.credit_step hs hl]
      by_cases e : i = l
      · rw [if_pos e, if_pos e]
        refine le_trans (le_of_eq ?_) (abs_add_le _ _)
        congr 1; ring
      · rw [if_neg e, if_neg e]; simp
    rw [Finset.sum_add_distrib, Finset.sum_ite_eq' (Finset.range n) l, if_pos (Finset.mem_range.2 hln)] at e
    linarith
  · intro i hi
    rw [h.shape.fake_step hl]
    split
    · rename_i e
      rw [e]
      exact v1.trans (h.zopen l (by simp [hl]))
    · exact h.zopen i (hold i hi (by assumption))
  · intro j hj hno
    rw [h.shape.prob_step hs, h.shape.alias_step hs]
    by_cases e : j = s
    · simp only [if_pos e]
      refine ⟨hfs.1, hfs.2, ?_, hln, hfl.1.trans (h.zopen l (by simp [hl]))⟩
      rw [e]
      exact h.zopen s (by simp [hs])
    · simp only [if_neg e]
      apply h.closed j hj
      rw [stepSt_mem] at hno
      rw [ms]
      tauto

/-- One iteration of the main loop. -/
theorem pairUpR_succ (rnd : ℝ → ℝ) {n : Nat} {st : AliasState ℝ} (h : Shape n st) {s l : Nat}
    {small large : List Nat} (hs : st.small = s :: small) (hl : st.large = l :: large) (fuel : Nat) :
    pairUpR rnd (fuel + 1) st = pairUpR rnd fuel
      (stepSt st s l small large (rnd (st.fake.getD l 0 + rnd (st.fake.getD s 0 - 1)))) := by
  have e1 := getElem?_eq_getD st.fake s 0 (by rw [h.lfake]; exact h.lt s (by simp [hs]))
  have e2 := getElem?_eq_getD st.fake l 0 (by rw [h.lfake]; exact h.lt l (by simp [hl]))
  rw [pairUpR]
  simp only [hs, hl, e1, e2, Option.bind_eq_bind, Option.bind_some]
  rfl

/-- The main loop ends, and keeps the invariant and any property kept by the iterations. -/
theorem pairUpR_spec (R : Rounding p) {n : Nat} {M : ℝ} {f0 : Nat → ℝ} (P : AliasState ℝ → Prop)
    (hP : ∀ st s l small large, RInv p n M f0 st → st.small = s :: small → st.large = l :: large →
      P st → P (stepSt st s l small large (R.rnd (st.fake.getD l 0 + R.rnd (st.fake.getD s 0 - 1))))) :
    ∀ (fuel : Nat) (st : AliasState ℝ), RInv p n M f0 st → P st →
    st.small.length + st.large.length < fuel →
    ∃ st', pairUpR R.rnd fuel st = some st' ∧ RInv p n M f0 st' ∧ P st' ∧
      (st'.small = [] ∨ st'.large = []) := by
  intro fuel
  induction fuel with
  | zero => intro st _ _ h; omega
  | succ fuel ih =>
    intro st h hp hf
    cases hs : st.small with
    | nil => exact ⟨st, by simp [pairUpR, hs], h, hp, Or.inl hs⟩
    | cons s small =>
      cases hl : st.large with
      | nil => exact ⟨st, by simp [pairUpR, hs, hl], h, hp, Or.inr hl⟩
      | cons l large =>
        rw [pairUpR_succ R.rnd h.shape hs hl]
        refine ih _ (h.step R hs hl) (hP _ _ _ _ _ h hs hl hp) ?_
        rw [hs, hl] at hf
        simp only [List.length_cons] at hf
        have := (stepSt_perm st s l small large
          (R.rnd (st.fake.getD l 0 + R.rnd (st.fake.getD s 0 - 1)))).length_eq
        simp only [List.length_append, List.length_cons] at this
        omega

/-! ### the normalised weights -/

theorem foldl_sum_bounds (R : Rounding p) : ∀ (w : List ℝ) (s : ℝ), 0 ≤ s → IsFloat p s →
    (∀ x ∈ w, 0 ≤ x ∧ IsFloat p x) →
    s ≤ w.foldl (fun s x => R.rnd (s + x)) s ∧ (∀ x ∈ w, x ≤ w.foldl (fun s x => R.rnd (s + x)) s) ∧
      w.foldl (fun s x => R.rnd (s + x)) s ≤ (s + w.sum) * (1 + unit p) ^ w.length ∧
      s + w.sum ≤ w.foldl (fun s x => R.rnd (s + x)) s * (1 + unit p) ^ w.length := by
  intro w
  have hu := Rounding.unit_pos (p := p)
  induction w with
  | nil => intro s _ _ _; simp
  | cons x w ih =>
    intro s hs hf hw
    have hx := hw x (by simp)
    have hw0 : 0 ≤ w.sum := List.sum_nonneg fun y hy => (hw y (by simp [hy])).1
    obtain ⟨h1, h2, h3, h4⟩ := ih (R.rnd (s + x)) (R.nonneg (by linarith [hx.1])) (R.isFloat _)
      (fun y hy => hw y (by simp [hy]))
    have a1 : s ≤ R.rnd (s + x) := by
      rw [← R.of_isFloat hf]; exact R.mono (by rw [R.of_isFloat hf]; linarith [hx.1])
    have a2 : x ≤ R.rnd (s + x) := by
      rw [← R.of_isFloat hx.2]; exact R.mono (by rw [R.of_isFloat hx.2]; linarith [hx.1])
    have b1 := R.rnd_le_mul (show 0 ≤ s + x by linarith [hx.1])
    have b2 := R.le_rnd_mul (show 0 ≤ s + x by linarith [hx.1])
    have hpow : 0 ≤ (1 + unit p) ^ w.length := by positivity
    rw [List.foldl_cons, List.sum_cons, List.length_cons, pow_succ]
    generalize w.foldl (fun s x => R.rnd (s + x)) (R.rnd (s + x)) = T at *
    generalize R.rnd (s + x) = r at *
    generalize (1 + unit p) ^ w.length = g at *
    refine ⟨a1.trans h1, ?_, ?_, ?_⟩
    · intro y hy
      rcases List.mem_cons.1 hy with rfl | hy
      · exact a2.trans h1
      · exact h2 y hy
    · have : (r + w.sum) * g ≤ ((s + x) * (1 + unit p) + w.sum * (1 + unit p)) * g := by
        refine mul_le_mul_of_nonneg_right ?_ hpow
        nlinarith
      nlinarith
    · have hsum : s + x + w.sum ≤ (r + w.sum) * (1 + unit p) := by nlinarith
      nlinarith

/-- The computed sum. -/
theorem sumR_bounds (R : Rounding p) (w : List ℝ) (hw : ∀ x ∈ w, 0 ≤ x ∧ IsFloat p x) :
    (∀ x ∈ w, x ≤ sumR R.rnd w) ∧ sumR R.rnd w ≤ w.sum * (1 + unit p) ^ w.length ∧
      w.sum ≤ sumR R.rnd w * (1 + unit p) ^ w.length := by
  have := foldl_sum_bounds R w 0 le_rfl isFloat_zero hw
  simp only [zero_add] at this
  exact this.2

theorem isFloat_natCast {n : Nat} (h : n ≤ 2 ^ p) : IsFloat p (n : ℝ) :=
  ⟨n, 0, by rw [abs_of_nonneg (by positivity)]; exact_mod_cast h, by simp⟩

/-- The normalised weight of `x`. -/
theorem fake_bounds (R : Rounding p) (w : List ℝ) (hw : ∀ x ∈ w, 0 ≤ x ∧ IsFloat p x)
    (hn : w.length ≤ 2 ^ p) (hpos : ∃ x ∈ w, 0 < x) (x : ℝ) (hx : x ∈ w) :
    0 ≤ R.rnd (x * normR R.rnd w) ∧
      R.rnd (x * normR R.rnd w) ≤ w.length * (1 + unit p) ^ 2 ∧
      R.rnd (x * normR R.rnd w) ≤ w.length * (x / w.sum) * (1 + unit p) ^ (w.length + 2) ∧
      w.length * (x / w.sum) ≤ R.rnd (x * normR R.rnd w) * (1 + unit p) ^ (w.length + 2) := by
  have hu := Rounding.unit_pos (p := p)
  obtain ⟨s1, s2, s3⟩ := sumR_bounds R w hw
  obtain ⟨y, hy, hy0⟩ := hpos
  have hS : 0 < sumR R.rnd w := hy0.trans_le (s1 y hy)
  have hW : 0 < w.sum := hy0.trans_le (List.single_le_sum (fun a ha => (hw a ha).1) y hy)
  have hx0 := (hw x hx).1
  have hxS := s1 x hx
  unfold normR
  rw [R.of_isFloat (isFloat_natCast hn)]
  generalize sumR R.rnd w = S at *
  have hn0 : (0 : ℝ) ≤ w.length := Nat.cast_nonneg _
  have hq : 0 ≤ (w.length : ℝ) / S := div_nonneg hn0 hS.le
  have c1 := R.rnd_le_mul hq
  have c2 := R.le_rnd_mul hq
  have hN : 0 ≤ R.rnd ((w.length : ℝ) / S) := R.nonneg hq
  generalize R.rnd ((w.length : ℝ) / S) = N at *
  have d1 := R.rnd_le_mul (mul_nonneg hx0 hN)
  have d2 := R.le_rnd_mul (mul_nonneg hx0 hN)
  have hf : 0 ≤ R.rnd (x * N) := R.nonneg (mul_nonneg hx0 hN)
  generalize R.rnd (x * N) = f at *
  have hg1 : 1 ≤ (1 + unit p) ^ w.length := one_le_pow₀ (by linarith)
  generalize hg : (1 + unit p) ^ w.length = g at *
  have hpw : (1 + unit p) ^ (w.length + 2) = g * (1 + unit p) ^ 2 := by rw [pow_add, hg]
  rw [hpw]
  have k1 : f ≤ w.length * (x / S) * (1 + unit p) ^ 2 := by
    have : x * N * (1 + unit p) ≤ x * ((w.length : ℝ) / S * (1 + unit p)) * (1 + unit p) :=
      mul_le_mul_of_nonneg_right (mul_le_mul_of_nonneg_left c1 hx0) (by linarith)
    calc f ≤ x * ((w.length : ℝ) / S * (1 + unit p)) * (1 + unit p) := d1.trans this
      _ = _ := by ring
  have k2 : w.length * (x / S) ≤ f * (1 + unit p) ^ 2 := by
    have h1 : x * ((w.length : ℝ) / S) ≤ x * (N * (1 + unit p)) := mul_le_mul_of_nonneg_left c2 hx0
    have h2 : x * N * (1 + unit p) ≤ f * (1 + unit p) * (1 + unit p) :=
      mul_le_mul_of_nonneg_right d2 (by linarith)
    calc w.length * (x / S) = x * ((w.length : ℝ) / S) := by ring
      _ ≤ x * (N * (1 + unit p)) := h1
      _ = x * N * (1 + unit p) := by ring
      _ ≤ f * (1 + unit p) * (1 + unit p) := h2
      _ = _ := by ring
  have hsq : 0 ≤ (1 + unit p) ^ 2 := by positivity
  have r1 : x / S ≤ x / w.sum * g := by
    rw [div_mul_eq_mul_div, div_le_div_iff₀ hS hW]
    nlinarith
  have r2 : x / w.sum ≤ x / S * g := by
    rw [div_mul_eq_mul_div, div_le_div_iff₀ hW hS]
    nlinarith
  refine ⟨hf, ?_, ?_, ?_⟩
  · have : x / S ≤ 1 := (div_le_one hS).2 hxS
    refine k1.trans (mul_le_mul_of_nonneg_right ?_ hsq)
    nlinarith
  · refine k1.trans ?_
    have := mul_le_mul_of_nonneg_right (mul_le_mul_of_nonneg_left r1 hn0) hsq
    calc _ ≤ _ := this
      _ = _ := by ring
  · have h1 := mul_le_mul_of_nonneg_left r2 hn0
    have h2 := mul_le_mul_of_nonneg_right k2 (by linarith : 0 ≤ g)
    calc _ ≤ w.length * (x / S * g) := h1
      _ = w.length * (x / S) * g := by ring
      _ ≤ _ := h2
      _ = _ := by ring

/-! ### the table -/

/-- The state before the main loop. -/
noncomputable def startR (rnd : ℝ → ℝ) (w : List ℝ) (small large : List Nat) : AliasState ℝ :=
  { fake := fakeR rnd w, small, large, prob := List.replicate w.length 0,
    aliases := List.replicate w.length 0 }

theorem fakeR_getD (rnd : ℝ → ℝ) (w : List ℝ) {i : Nat} (hi : i < w.length) :
    (fakeR rnd w).getD i 0 = rnd (w[i] * normR rnd w) := by
  simp [fakeR, List.getD_eq_getElem?_getD, hi]

/-- Construction of the table: any bound `M` of the normalised weights, and any property `P` of the
state that holds at the start and is kept by the iterations. -/
theorem aliasInitR_spec (R : Rounding p) (w : List ℝ) (hne : w ≠ []) {M : ℝ}
    (h0 : ∀ x ∈ w, 0 ≤ R.rnd (x * normR R.rnd w) ∧ R.rnd (x * normR R.rnd w) ≤ M)
    (P : AliasState ℝ → Prop)
    (hstart : ∀ s l, classify (fakeR R.rnd w) w.length [] [] = some (s, l) → P (startR R.rnd w s l))
    (hP : ∀ st s l small large,
      RInv p w.length M (fun i => (fakeR R.rnd w).getD i 0) st →
      st.small = s :: small → st.large = l :: large →
      P st → P (stepSt st s l small large (R.rnd (st.fake.getD l 0 + R.rnd (st.fake.getD s 0 - 1))))) :
    ∃ st pr, aliasInitR R.rnd w = some (pr, st.aliases) ∧
      RInv p w.length M (fun i => (fakeR R.rnd w).getD i 0) st ∧ P st ∧
      (st.small = [] ∨ st.large = []) ∧ pr.length = w.length ∧ ∀ j, pr.getD j 0 = pDone st j := by
  have hfl : (fakeR R.rnd w).length = w.length := by simp [fakeR]
  obtain ⟨s, l, e1, g1, g2, g3⟩ := classify_spec (fakeR R.rnd w) w.length [] [] hfl.ge (by simp) (by simp)
  simp only [List.append_nil] at g3
  have hmem : ∀ i, i ∈ s ++ l ↔ i < w.length := fun i => by rw [g3.mem_iff]; simp
  have hlen : (s ++ l).length = w.length := by rw [g3.length_eq, List.length_range]
  have hM : ∀ i, i < w.length → 0 ≤ (fakeR R.rnd w).getD i 0 ∧ (fakeR R.rnd w).getD i 0 ≤ M := by
    intro i hi
    rw [fakeR_getD _ _ hi]
    exact h0 _ (List.getElem_mem _)
  have inv : RInv p w.length M (fun i => (fakeR R.rnd w).getD i 0) (startR R.rnd w s l) := by
    refine ⟨⟨hfl, by simp [startR], by simp [startR], g3.nodup_iff.2 List.nodup_range, ?_⟩,
      ?_, ?_, ?_, ?_, ?_, ?_, ?_⟩
    · intro i hi; exact (hmem i).1 hi
    · intro i hi
      show IsFloat p ((fakeR R.rnd w).getD i 0)
      rw [fakeR_getD _ _ ((hmem i).1 hi)]
      exact R.isFloat _
    · intro i hi
      exact ⟨(hM i ((hmem i).1 (List.mem_append_left _ hi))).1, g1 i hi⟩
    · intro i hi
      exact ⟨g2 i hi, (hM i ((hmem i).1 (List.mem_append_right _ hi))).2⟩
    · show |surplus (startR R.rnd w s l) - _| ≤ ((w.length : ℝ) - ((s ++ l).length : ℕ)) * _
      have : surplus (startR R.rnd w s l) =
          ∑ i ∈ Finset.range w.length, ((fakeR R.rnd w).getD i 0 - 1) := by
        show ((s ++ l).map _).sum = _
        rw [(g3.map _).sum_eq]
        simp [Finset.sum, Finset.range, Multiset.range, startR]
      rw [this, hlen]; simp
    · show ∑ i ∈ Finset.range w.length, _ ≤ ((w.length : ℝ) - ((s ++ l).length : ℕ)) * _
      rw [hlen]
      simp only [sub_self, zero_mul]
      refine le_of_eq (Finset.sum_eq_zero ?_)
      intro i hi
      have hi' := Finset.mem_range.1 hi
      unfold credit
      rw [mass_one _ _ _ ?_ i hi']
      · show |1 + (if i ∈ s ++ l then (fakeR R.rnd w).getD i 0 - 1 else 0) - _| = 0
        rw [if_pos ((hmem i).2 hi')]
        simp
      · intro j hj
        show (if j ∈ s ++ l then (1 : ℝ) else _) = 1
        rw [if_pos ((hmem j).2 hj)]
    · intro i _; exact le_rfl
    · intro j hj hno
      exact absurd ((hmem j).2 hj) hno
  obtain ⟨st, e2, inv', hp', hd⟩ := pairUpR_spec R P hP (w.length + 1) (startR R.rnd w s l) inv
    (hstart s l e1) (by
      rw [List.length_append] at hlen
      show s.length + l.length < w.length + 1
      omega)
  have hll : ∀ i ∈ st.large ++ st.small, i < st.prob.length := by
    intro i hi
    rw [inv'.shape.lprob]
    apply inv'.shape.lt
    rw [List.mem_append] at hi ⊢
    exact hi.symm
  refine ⟨st, (st.large ++ st.small).foldl (fun p i => p.set i 1) st.prob, ?_, inv', hp', hd, ?_, ?_⟩
  · unfold aliasInitR
    have : w.isEmpty = false := by simpa using hne
    simp only [this]
    show (Option.bind (classify (fakeR R.rnd w) w.length [] []) _) = _
    rw [e1]
    show (Option.bind (pairUpR R.rnd (w.length + 1) (startR R.rnd w s l)) _) = _
    rw [e2]
    rfl
  · rw [foldl_set_length, inv'.shape.lprob]
  · intro j
    rw [foldl_set_one _ _ _ hll]
    unfold pDone
    simp only [List.mem_append, or_comm]

end Verif.Random
