import Verif.Lemmas.KDTree
import Mathlib.Order.WithBot
import Mathlib.Algebra.Order.AddGroupWithTop

/-
Sorting and tree construction on values that may be `+infinity`: `WithTop F`.  The library's equality
is false as soon as one side is infinite, so an infinite pivot is not even equal to itself.
-/

namespace Verif.Sorting

variable {K : Type} [LinearOrder K]

/-- Partition around a largest value that is equal to nothing. -/
theorem partitionLoop_top {eqv : K → K → Bool} {key : Nat → K} {pivot : K}
    (htop : ∀ b, b ≤ pivot) (hnone : ∀ b, eqv pivot b = false) :
    ∀ (fuel : Nat) (idx : List Nat) (lp rp pv x : Nat),
      lp ≤ pv → 0 < rp → rp ≤ idx.length → idx[pv]? = some x → key x = pivot →
      (∀ i y, rp ≤ i → idx[i]? = some y → key y = pivot) → rp - lp < fuel →
      ∃ idx' p x', partitionLoop eqv key pivot fuel idx lp rp pv = some (idx', p) ∧
        idx'.Perm idx ∧ idx'[p]? = some x' ∧ key x' = pivot ∧
        (∀ i y, p < i → idx'[i]? = some y → key y = pivot) := by
  intro fuel
  induction fuel with
  | zero => intro idx lp rp pv x _ _ _ _ _ _ h; omega
  | succ fuel ih =>
    intro idx lp rp pv x h1 h2 h3 hx hkey hhigh hf
    have hpvlen : pv < idx.length := (List.getElem?_eq_some_iff.1 hx).1
    obtain ⟨L, yl, eL, hL1, hL2, hyl, hkl, _⟩ :=
      scanUp_spec (key := key) (pivot := pivot) (idx.length + 1) lp pv x h1 hx (by simp [hkey]) (by omega)
    have hklt : key yl = pivot := le_antisymm (htop _) hkl
    have hLlen : L < idx.length := by omega
    obtain ⟨R, rfl⟩ : ∃ R, rp = R + 1 := ⟨rp - 1, by omega⟩
    have hRlen : R < idx.length := by omega
    obtain ⟨yr, hyr⟩ : ∃ y, idx[R]? = some y := ⟨idx[R], List.getElem?_eq_getElem hRlen⟩
    have eR : scanDown key pivot idx (R + 1) = some R := by
      simp [scanDown, hyr, not_lt.2 (htop (key yr))]
    simp only [partitionLoop, eL, eR, Option.bind_eq_bind, Option.bind_some]
    by_cases hLR : L ≥ R
    · refine ⟨idx, pv, x, by simp [hLR], List.Perm.refl _, hx, hkey, ?_⟩
      intro i y hi hy
      exact hhigh i y (by omega) hy
    · simp only [hLR, if_false, hyr, Option.bind_some, hnone, Bool.not_false, if_true]
      obtain ⟨idx', eS, hperm, hsL, hsR, hsk⟩ := swap_some hLlen hRlen
      have hlen' : idx'.length = idx.length := hperm.length_eq
      simp only [eS, Option.bind_some]
      have hR' : idx'[R]? = some yl := by rw [hsR, hyl]
      have hhigh' : ∀ i y, R ≤ i → idx'[i]? = some y → key y = pivot := by
        intro i y hi hy
        by_cases hiR : i = R
        · subst hiR; rw [hR'] at hy; simp at hy; subst hy; exact hklt
        · rw [hsk i (by omega) hiR] at hy; exact hhigh i y (by omega) hy
      by_cases hpL : pv = L
      · simp only [hpL, if_true]
        obtain ⟨idx'', p, x', e, hp, r1, r2, r3⟩ := ih idx' (L + 1) (R + 1) R yl (by omega) (by omega)
          (by omega) hR' hklt (fun i y hi hy => hhigh' i y (by omega) hy) (by omega)
        exact ⟨idx'', p, x', e, hp.trans hperm, r1, r2, r3⟩
      · simp only [hpL, if_false]
        have hpv' : ∃ z, idx'[pv]? = some z ∧ key z = pivot := by
          by_cases hpR : pv = R
          · subst hpR; exact ⟨yl, hR', hklt⟩
          · exact ⟨x, by rw [hsk pv hpL hpR, hx], hkey⟩
        obtain ⟨z, hz, hkz⟩ := hpv'
        obtain ⟨idx'', p, x', e, hp, r1, r2, r3⟩ := ih idx' (L + 1) R pv z (by omega) (by omega)
          (by omega) hz hkz hhigh' (by omega)
        exact ⟨idx'', p, x', e, hp.trans hperm, r1, r2, r3⟩

/-- An equality that is reflexive, except possibly at a largest value that is equal to nothing. -/
structure TopEq (eqv : K → K → Bool) : Prop where
  refl : ∀ a, eqv a a = true ∨ ((∀ b, b ≤ a) ∧ ∀ b, eqv a b = false)
  mono : ∀ a b c, a ≤ b → LeE eqv b c → LeE eqv a c

theorem TopEq.partOk {eqv : K → K → Bool} (hg : TopEq eqv) (key : Nat → K) : PartOk eqv key := by
  intro idx pv hpv
  rcases hg.refl (key idx[pv]) with h | ⟨htop, hnone⟩
  · obtain ⟨P, x, Q, e, h1, _, h2, h3⟩ := partition_spec' key idx pv hpv h
    exact ⟨P, x, Q, e, h1, fun y hy => (h2 y hy).le, h3⟩
  · have hx : idx[pv]? = some idx[pv] := List.getElem?_eq_getElem hpv
    have main : ∃ idx' p x', partition eqv key idx pv = some (idx', p) ∧ idx'.Perm idx ∧
        idx'[p]? = some x' ∧ key x' = key idx[pv] ∧
        (∀ i y, p < i → idx'[i]? = some y → key y = key idx[pv]) := by
      by_cases h1 : idx.length = 1
      · refine ⟨idx, pv, idx[pv], by simp [partition, h1], List.Perm.refl _, hx, rfl, ?_⟩
        intro i y hi hy
        have := (List.getElem?_eq_some_iff.1 hy).1; omega
      · obtain ⟨idx', p, x', e, r⟩ := partitionLoop_top (key := key) htop hnone (idx.length + 1) idx 0
          idx.length pv idx[pv] (Nat.zero_le _) (by omega) (le_refl _) hx rfl
          (by
            intro i y hi hy
            have := (List.getElem?_eq_some_iff.1 hy).1; omega)
          (by omega)
        exact ⟨idx', p, x', by simp [partition, h1, hx, e], r⟩
    obtain ⟨idx', p, x, e, hperm, hx', hk, h2⟩ := main
    have hp : p < idx'.length := (List.getElem?_eq_some_iff.1 hx').1
    have hdec : idx' = idx'.take p ++ x :: idx'.drop (p + 1) := by
      have hxe : idx'[p] = x := (List.getElem?_eq_some_iff.1 hx').2
      rw [← hxe, List.getElem_cons_drop, List.take_append_drop]
    have hlen : (idx'.take p).length = p := by simp; omega
    refine ⟨idx'.take p, x, idx'.drop (p + 1), ?_, ?_, ?_, ?_⟩
    · rw [← hdec, hlen]; exact e
    · rw [← hdec]; exact hperm
    · intro y _; rw [hk]; exact htop _
    · intro y hy
      obtain ⟨i, hi, hiy⟩ := List.mem_iff_getElem.1 hy
      simp only [List.length_drop] at hi
      refine Or.inl ?_
      rw [hk, h2 (p + 1 + i) y (by omega)
        (by rw [← hiy, List.getElem_drop]; exact List.getElem?_eq_getElem (by omega))]

section WithTop

variable {F : Type} [Field F] [LinearOrder F] [IsStrictOrderedRing F]

/-- `|b - a| <= eps` on values that may be `+infinity`: false when one side is infinite. -/
def eqTop (eps : F) : WithTop F → WithTop F → Bool
  | (a : F), (b : F) => eqEps eps a b
  | _, _ => false

theorem eqTop_iff {eps : F} {a b : WithTop F} :
    eqTop eps a b = true ↔ ∃ u v : F, a = u ∧ b = v ∧ |v - u| ≤ eps := by
  cases a <;> cases b <;> simp [eqTop, eqEps]

theorem eqTop_le {eps : F} {a b : WithTop F} (h : eqTop eps a b = true) :
    a ≤ b + eps ∧ b ≤ a + eps := by
  obtain ⟨u, v, rfl, rfl, hd⟩ := eqTop_iff.1 h
  have := abs_le.1 hd
  norm_cast
  constructor <;> linarith

theorem le_add_eps {eps : F} (he : 0 ≤ eps) (a : WithTop F) : a ≤ a + eps := by
  cases a with
  | top => simp
  | coe a => norm_cast; linarith

theorem leE_top_le {eps : F} (he : 0 ≤ eps) {a b : WithTop F} (h : LeE (eqTop eps) a b) : a ≤ b + eps := by
  rcases h with h | h
  · exact h.trans (le_add_eps he b)
  · exact (eqTop_le h).1

theorem topEq_eqTop {eps : F} (he : 0 ≤ eps) : TopEq (eqTop eps) := by
  constructor
  · intro a
    cases a with
    | top => exact Or.inr ⟨fun b => le_top, fun b => by cases b <;> rfl⟩
    | coe a => exact Or.inl (by simpa [eqTop, eqEps] using he)
  · intro a b c hab h
    rcases h with h | h
    · exact Or.inl (hab.trans h)
    · obtain ⟨u, v, rfl, rfl, hd⟩ := eqTop_iff.1 h
      cases a with
      | top => exact absurd hab (by simp)
      | coe w =>
        have hwu : w ≤ u := by exact_mod_cast hab
        by_cases hwv : w ≤ v
        · exact Or.inl (by exact_mod_cast hwv)
        · refine Or.inr (eqTop_iff.2 ⟨w, v, rfl, rfl, ?_⟩)
          have := abs_le.1 hd
          rw [abs_le]; constructor <;> linarith

theorem top_trans {eps : F} {a b c : WithTop F} (h1 : a ≤ b + eps) (h2 : b ≤ c + eps) :
    a ≤ c + (2 * eps : F) := by
  cases c with
  | top => simp
  | coe c =>
    cases b with
    | top => exact absurd h2 (by rw [← WithTop.coe_add]; simp)
    | coe b =>
      cases a with
      | top => exact absurd h1 (by rw [← WithTop.coe_add]; simp)
      | coe a => norm_cast at h1 h2 ⊢; linarith

theorem top_weaken {eps : F} (he : 0 ≤ eps) {a b : WithTop F} (h1 : a ≤ b + eps) : a ≤ b + (2 * eps : F) :=
  top_trans h1 (le_add_eps he b)

end WithTop

end Verif.Sorting

namespace Verif.KDTree

open Verif.Sorting

/-- Values that may be `+infinity`: each side may be out of order by at most `2 * eps`. -/
theorem splitsBy_top {F : Type} [Field F] [LinearOrder F] [IsStrictOrderedRing F] {eps : F} (he : 0 ≤ eps)
    (x : Nat → Nat → WithTop F) :
    SplitsBy (eqTop eps) x (fun a i p => x i a ≤ x p a + (2 * eps : F))
      (fun a p i => x p a ≤ x i a + (2 * eps : F)) := by
  intro axis idx hne
  have hpos : 0 < idx.length := List.length_pos_iff.2 hne
  have hk : (idx.length - 1) / 2 < idx.length := by omega
  have hg := topEq_eqTop he
  obtain ⟨P, m, Q, e, hlen, hperm, h1, h3⟩ :=
    quickselect_part (hg.partOk (fun i => x i axis)) hg.mono idx _ hk
  obtain ⟨A, B, hAB, es, hB, _⟩ :=
    shiftLeft_spec (eqTop eps) (fun i => x i axis) (x m axis) (m :: Q) _ P rfl
  have hget : (P ++ m :: Q)[(idx.length - 1) / 2]? = some m := by
    rw [← hlen]; simp
  rw [hlen] at es
  have h1' : ∀ a ∈ A, x a axis ≤ x m axis + eps := fun a ha =>
    leE_top_le he (h1 a (by rw [hAB]; simp [ha]))
  have h3' : ∀ b ∈ Q, x m axis ≤ x b axis + eps := fun b hb => leE_top_le he (h3 b hb)
  have hB1 : ∀ b ∈ B, x b axis ≤ x m axis + eps ∧ x m axis ≤ x b axis + eps :=
    fun b hb => eqTop_le (hB b hb)
  have hq : quickselectMedian (eqTop eps) (fun i => x i axis) idx =
      (do let p ← (A ++ (B ++ m :: Q))[A.length]?
          some ((A ++ (B ++ m :: Q)).take A.length, p, (A ++ (B ++ m :: Q)).drop (A.length + 1))) := by
    have hR : P ++ m :: Q = A ++ (B ++ m :: Q) := by rw [hAB]; simp
    unfold quickselectMedian
    simp only [e, Option.bind_eq_bind, Option.bind_some, hget, es]
    rw [hR]
  rw [hAB] at hperm
  rw [hq]
  rcases B with _ | ⟨b, B⟩
  · simp only [List.nil_append, List.append_nil] at hperm hq ⊢
    exact ⟨A, m, Q, by simp, hperm, fun i hi => top_weaken he (h1' i hi),
      fun i hi => top_weaken he (h3' i hi)⟩
  · have hbm := hB1 b (by simp)
    refine ⟨A, b, B ++ m :: Q, by simp, by simpa using hperm, ?_, ?_⟩
    · intro i hi; exact top_trans (h1' i hi) hbm.2
    · intro i hi
      simp only [List.mem_append, List.mem_cons] at hi
      rcases hi with hi | rfl | hi
      · exact top_trans hbm.1 (hB1 i (by simp [hi])).2
      · exact top_weaken he hbm.1
      · exact top_trans hbm.1 (h3' i hi)

theorem make_top {F : Type} [Field F] [LinearOrder F] [IsStrictOrderedRing F] {eps : F} (he : 0 ≤ eps)
    (x : Nat → Nat → WithTop F) (policy : List Nat → Nat → Box (WithTop F) → Nat)
    (bucketSize maxDepth nf : Nat) (hpol : ∀ idx d box, policy idx d box < nf) (vmax vlowest : WithTop F)
    (idx : List Nat) :
    ∃ idx' t, make (eqTop eps) x policy bucketSize maxDepth nf vmax vlowest idx = some (idx', t) ∧
      idx'.Perm idx ∧ t.indices = idx' ∧ t.AxesLt nf ∧
      t.SplitBy (fun a i p => x i a ≤ x p a + (2 * eps : F)) (fun a p i => x p a ≤ x i a + (2 * eps : F)) := by
  obtain ⟨idx', t, e, h1, h2, _, h3, _, h4, _⟩ := build_spec (le := fun _ _ => True) (fun _ => trivial)
    (fun _ _ _ _ => trivial) (fun _ _ _ _ => trivial) (splitsBy_top he x) policy bucketSize maxDepth nf hpol
    (idx.length + 1) idx 0 (tightBound x nf vmax vlowest idx) (by omega) (tightBound_length ..) (by omega)
    (fun _ _ _ _ _ => ⟨trivial, trivial⟩)
  exact ⟨idx', t, by simp [make, e], h1, h2, h4, h3⟩

end Verif.KDTree
