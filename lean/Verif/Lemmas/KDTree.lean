import Verif.Spec.KDTree
import Verif.Lemmas.Sorting

namespace Verif.KDTree

open Verif.Sorting

set_option linter.unusedSectionVars false

variable {K : Type} [LinearOrder K]

/-! ### splitting -/

theorem shiftLeft_spec {K : Type} [LT K] [DecidableLT K] (eqv : K → K → Bool) (key : Nat → K) (cut : K) (T : List Nat) :
    ∀ (n : Nat) (P : List Nat), P.length = n →
      ∃ A B, P = A ++ B ∧ shiftLeft eqv key cut (P ++ T) P.length = some A.length ∧
        (∀ b ∈ B, eqv (key b) cut = true) ∧
        (∀ A' a, A = A' ++ [a] → eqv (key a) cut = false) := by
  intro n
  induction n generalizing T with
  | zero =>
    intro P hP
    have : P = [] := List.length_eq_zero_iff.1 hP
    subst this
    exact ⟨[], [], rfl, rfl, by simp, by simp⟩
  | succ n ih =>
    intro P hP
    obtain ⟨P', a, rfl⟩ : ∃ P' a, P = P' ++ [a] := by
      have hne : P ≠ [] := by intro h; simp [h] at hP
      exact ⟨P.dropLast, P.getLast hne, (List.dropLast_append_getLast hne).symm⟩
    simp only [List.length_append, List.length_cons, List.length_nil, Nat.zero_add,
      Nat.add_right_cancel_iff] at hP
    have hl : (P' ++ [a]).length = P'.length + 1 := by simp
    have hget : (P' ++ [a] ++ T)[P'.length]? = some a := by simp
    rw [hl]
    simp only [shiftLeft, hget, Option.bind_eq_bind, Option.bind_some]
    by_cases he : eqv (key a) cut = true
    · simp only [he, if_true]
      obtain ⟨A, B, hAB, e, h1, h2⟩ := ih (a :: T) P' hP
      refine ⟨A, B ++ [a], by rw [hAB]; simp, ?_, ?_, h2⟩
      · simpa using e
      · intro b hb
        rcases List.mem_append.1 hb with hb | hb
        · exact h1 b hb
        · simp at hb; subst hb; exact he
    · have he' : eqv (key a) cut = false := by simpa using he
      simp only [he']
      refine ⟨P' ++ [a], [], by simp, by simp, by simp, ?_⟩
      intro A' a' hA
      have := List.append_inj_right' hA rfl
      simp at this; subst this; exact he'

/-- What the splitting rule must give. -/
def SplitsBy {K : Type} [LT K] [DecidableLT K] (eqv : K → K → Bool) (x : Nat → Nat → K) (L R : Nat → Nat → Nat → Prop) : Prop :=
  ∀ (axis : Nat) (idx : List Nat), idx ≠ [] →
    ∃ l p r, quickselectMedian eqv (fun i => x i axis) idx = some (l, p, r) ∧
      (l ++ p :: r).Perm idx ∧ (∀ i ∈ l, L axis i p) ∧ (∀ i ∈ r, R axis p i)

theorem splitsBy_exact (x : Nat → Nat → K) :
    SplitsBy eqExact x (fun a i p => x i a < x p a) (fun a p i => x p a ≤ x i a) := by
  intro axis idx hne
  have hpos : 0 < idx.length := List.length_pos_iff.2 hne
  have hk : (idx.length - 1) / 2 < idx.length := by omega
  obtain ⟨P1, P2, m, Q, e, hlen, hperm, h1, h2, h3⟩ :=
    quickselect_leftmost (fun i => x i axis) idx _ hk
  obtain ⟨A, B, hAB, es, hB, hA⟩ :=
    shiftLeft_spec eqExact (fun i => x i axis) (x m axis) (m :: Q) _ (P1 ++ P2) rfl
  have hget : (P1 ++ P2 ++ m :: Q)[(idx.length - 1) / 2]? = some m := by
    rw [← hlen]; simp
  rw [hlen] at es
  have hA1 : ∀ a ∈ A, x a axis < x m axis := by
    intro a ha
    have hBlen : P2.length ≤ B.length := by
      by_contra hc
      have hal : A.length + B.length = P1.length + P2.length := by
        have := congrArg List.length hAB; simpa using this.symm
      -- the last element of `A` lies in `P2`
      have hlast : ∃ A' a', A = A' ++ [a'] ∧ a' ∈ P2 := by
        have hAne : A ≠ [] := by intro h; simp [h] at hal; omega
        refine ⟨A.dropLast, A.getLast hAne, (List.dropLast_append_getLast hAne).symm, ?_⟩
        have hg : (P1 ++ P2)[A.length - 1]? = some (A.getLast hAne) := by
          rw [hAB, List.getElem?_append_left (by omega), List.getLast_eq_getElem]
          exact List.getElem?_eq_getElem _
        rw [List.getElem?_append_right (by omega)] at hg
        exact List.mem_of_getElem? hg
      obtain ⟨A', a', hA', ha'⟩ := hlast
      have := hA A' a' hA'
      have h4 := h2 a' ha'
      simp only [eqExact, decide_eq_false_iff_not] at this
      exact this h4
    have haP1 : a ∈ P1 := by
      have hal : A.length + B.length = P1.length + P2.length := by
        have := congrArg List.length hAB; simpa using this.symm
      obtain ⟨j, hj⟩ := List.mem_iff_getElem?.1 ha
      have hjl : j < A.length := by
        by_contra hc; rw [List.getElem?_eq_none (by omega)] at hj; simp at hj
      have : (P1 ++ P2)[j]? = some a := by rw [hAB, List.getElem?_append_left hjl]; exact hj
      rw [List.getElem?_append_left (by omega)] at this
      exact List.mem_of_getElem? this
    exact h1 a haP1
  have hB1 : ∀ b ∈ B, x b axis = x m axis := by
    intro b hb
    have := hB b hb
    simpa [eqExact] using this
  have hq : quickselectMedian eqExact (fun i => x i axis) idx =
      (do let p ← (A ++ (B ++ m :: Q))[A.length]?
          some ((A ++ (B ++ m :: Q)).take A.length, p, (A ++ (B ++ m :: Q)).drop (A.length + 1))) := by
    have hR : P1 ++ P2 ++ m :: Q = A ++ (B ++ m :: Q) := by rw [hAB]; simp
    unfold quickselectMedian
    simp only [e, Option.bind_eq_bind, Option.bind_some, hget, es]
    rw [hR]
  rw [hAB] at hperm
  rw [hq]
  rcases B with _ | ⟨b, B⟩
  · simp only [List.nil_append, List.append_nil] at hperm hq ⊢
    refine ⟨A, m, Q, by simp, hperm, hA1, h3⟩
  · refine ⟨A, b, B ++ m :: Q, by simp, by simpa using hperm, ?_, ?_⟩
    · intro i hi; rw [hB1 b (by simp)]; exact hA1 i hi
    · intro i hi
      rw [hB1 b (by simp)]
      simp only [List.mem_append, List.mem_cons] at hi
      rcases hi with hi | rfl | hi
      · rw [hB1 i (by simp [hi])]
      · exact le_refl _
      · exact h3 i hi

/-- Any equality that identifies values of the data at most `eps` apart: each side may be out of order
by at most `2 * eps`. -/
theorem splitsBy_tol {F : Type} [Field F] [LinearOrder F] [IsStrictOrderedRing F] {eqv : F → F → Bool}
    (hg : GoodEq eqv) (eps : F) (he : 0 ≤ eps) (x : Nat → Nat → F)
    (htol : ∀ a i j, eqv (x i a) (x j a) = true → |x j a - x i a| ≤ eps) :
    SplitsBy eqv x (fun a i p => x i a ≤ x p a + 2 * eps)
      (fun a p i => x p a ≤ x i a + 2 * eps) := by
  intro axis idx hne
  have hpos : 0 < idx.length := List.length_pos_iff.2 hne
  have hk : (idx.length - 1) / 2 < idx.length := by omega
  obtain ⟨P, m, Q, e, hlen, hperm, h1, h3⟩ :=
    quickselect_spec hg (fun i => x i axis) idx _ hk
  obtain ⟨A, B, hAB, es, hB, _⟩ :=
    shiftLeft_spec eqv (fun i => x i axis) (x m axis) (m :: Q) _ P rfl
  have hget : (P ++ m :: Q)[(idx.length - 1) / 2]? = some m := by
    rw [← hlen]; simp
  rw [hlen] at es
  have hle : ∀ i j, LeE eqv (x i axis) (x j axis) → x i axis ≤ x j axis + eps := by
    rintro i j (h | h)
    · linarith
    · have := abs_le.1 (htol axis i j h)
      linarith
  have h1' : ∀ a ∈ A, x a axis ≤ x m axis + eps := fun a ha =>
    hle a m (h1 a (by rw [hAB]; simp [ha]))
  have h3' : ∀ b ∈ Q, x m axis ≤ x b axis + eps := fun b hb => hle m b (h3 b hb)
  have hB1 : ∀ b ∈ B, x b axis ≤ x m axis + eps ∧ x m axis ≤ x b axis + eps := by
    intro b hb
    have := hB b hb
    have := abs_le.1 (htol axis b m this)
    constructor <;> linarith
  have hq : quickselectMedian eqv (fun i => x i axis) idx =
      (do let p ← (A ++ (B ++ m :: Q))[A.length]?
          some ((A ++ (B ++ m :: Q)).take A.length, p, (A ++ (B ++ m :: Q)).drop (A.length + 1))) := by
    have hR : P ++ m :: Q = A ++ (B ++ m :: Q) := by rw [hAB]; simp
    unfold quickselectMedian
    simp only [e, Option.bind_eq_bind, Option.bind_some, hget, es]
    rw [hR]
  rw [hAB] at hperm
  rw [hq]
  rcases B with _ | ⟨b, B⟩
  · simp only [List.nil_append, List.append_nil] at hperm hq ⊢
    refine ⟨A, m, Q, by simp, hperm, ?_, ?_⟩
    · intro i hi; have := h1' i hi; linarith
    · intro i hi; have := h3' i hi; linarith
  · have hbm := hB1 b (by simp)
    refine ⟨A, b, B ++ m :: Q, by simp, by simpa using hperm, ?_, ?_⟩
    · intro i hi; have := h1' i hi; linarith [hbm.1, hbm.2]
    · intro i hi
      simp only [List.mem_append, List.mem_cons] at hi
      rcases hi with hi | rfl | hi
      · have := hB1 i (by simp [hi]); linarith [this.1, this.2, hbm.1, hbm.2]
      · linarith [hbm.1, hbm.2]
      · have := h3' i hi; linarith [hbm.1, hbm.2]

/-- Floating data: each side may be out of order by at most `2 * eps`. -/
theorem splitsBy_eps {F : Type} [Field F] [LinearOrder F] [IsStrictOrderedRing F] (eps : F)
    (he : 0 ≤ eps) (x : Nat → Nat → F) :
    SplitsBy (eqEps eps) x (fun a i p => x i a ≤ x p a + 2 * eps)
      (fun a p i => x p a ≤ x i a + 2 * eps) :=
  splitsBy_tol (goodEq_eps he) eps he x (fun _ _ _ h => by
    simpa only [eqEps, decide_eq_true_eq] using h)

/-! ### boxes -/

theorem updUpper_eq {K : Type} {box : Box K} {axis : Nat} {seg : K × K} (h : box[axis]? = some seg) (v : K) :
    updUpper box axis v = some (box.set axis (seg.1, v)) := by
  simp [updUpper, h]

theorem updLower_eq {K : Type} {box : Box K} {axis : Nat} {seg : K × K} (h : box[axis]? = some seg) (v : K) :
    updLower box axis v = some (box.set axis (v, seg.2)) := by
  simp [updLower, h]

theorem lt_of_getElem? {α : Type} {l : List α} {i : Nat} {a : α} (h : l[i]? = some a) :
    i < l.length := by
  by_contra hc; rw [List.getElem?_eq_none (by omega)] at h; simp at h

theorem set_self {α : Type} {l : List α} {i : Nat} {a : α} (h : l[i]? = some a) :
    l.set i a = l := by
  apply List.ext_getElem?
  intro j
  rw [List.getElem?_set]
  split
  · rename_i hij; subst hij; rw [if_pos (lt_of_getElem? h), h]
  · rfl

theorem InBox.set {K : Type} {le : K → K → Prop} {x : Nat → Nat → K} {box : Box K} {i axis : Nat}
    {s : K × K} (h : InBox le x box i) (hs : le s.1 (x i axis) ∧ le (x i axis) s.2) :
    InBox le x (box.set axis s) i := by
  intro f seg hf
  rw [List.getElem?_set] at hf
  split at hf
  · rename_i hfa; subst hfa
    split at hf
    · simp only [Option.some.injEq] at hf; subst hf; exact hs
    · simp at hf
  · exact h f seg hf

theorem SubBox.set {K : Type} {le : K → K → Prop} (hrefl : ∀ a, le a a) {box : Box K} {axis : Nat}
    {seg s : K × K} (h : box[axis]? = some seg) (h1 : le seg.1 s.1) (h2 : le s.2 seg.2) :
    SubBox le (box.set axis s) box := by
  refine ⟨by simp, ?_⟩
  intro f a b ha hb
  rw [List.getElem?_set] at ha
  split at ha
  · rename_i hfa; subst hfa
    rw [h] at hb
    split at ha
    · simp only [Option.some.injEq] at ha hb; subst ha; subst hb; exact ⟨h1, h2⟩
    · simp at ha
  · rw [ha] at hb; simp only [Option.some.injEq] at hb; subst hb; exact ⟨hrefl _, hrefl _⟩

/-! ### construction -/

theorem build_spec {K : Type} [LT K] [DecidableLT K] {eqv : K → K → Bool} {x : Nat → Nat → K} {L R : Nat → Nat → Nat → Prop}
    {le : K → K → Prop} (hrefl : ∀ a, le a a)
    (hL : ∀ a i p, L a i p → le (x i a) (x p a)) (hR : ∀ a p i, R a p i → le (x p a) (x i a))
    (hsplit : SplitsBy eqv x L R) (policy : List Nat → Nat → Box K → Nat)
    (bucketSize maxDepth nf : Nat) (hpol : ∀ idx d box, policy idx d box < nf) :
    ∀ (fuel : Nat) (idx : List Nat) (depth : Nat) (box : Box K), idx.length < fuel →
      box.length = nf → depth ≤ maxDepth → (∀ i ∈ idx, InBox le x box i) →
      ∃ idx' t, build eqv x policy bucketSize maxDepth fuel idx depth box = some (idx', t, box) ∧
        idx'.Perm idx ∧ t.indices = idx' ∧ t.box = box ∧ t.SplitBy L R ∧ t.BoxesOk le x ∧
        t.AxesLt nf ∧
        (∀ s ∈ t.subtrees depth, NodeLimits bucketSize maxDepth s.1 s.2) := by
  intro fuel
  induction fuel with
  | zero => intro idx depth box h; omega
  | succ fuel ih =>
    intro idx depth box hfuel hbox hdepth hin
    unfold build
    by_cases hc : depth < maxDepth ∧ idx.length > bucketSize
    · rw [if_pos hc]
      have hne : idx ≠ [] := by intro h; simp [h] at hc
      obtain ⟨l, p, r, eq, hperm, hl, hr⟩ := hsplit (policy idx depth box) idx hne
      have hax : policy idx depth box < nf := hpol _ _ _
      generalize hA : policy idx depth box = axis at *
      have hlen : l.length + 1 + r.length = idx.length := by
        have := hperm.length_eq; simp at this; omega
      obtain ⟨seg, hseg⟩ : ∃ seg, box[axis]? = some seg :=
        ⟨box[axis]'(by omega), List.getElem?_eq_getElem _⟩
      have hmem : ∀ i, i ∈ l ++ p :: r → i ∈ idx := fun i hi => hperm.mem_iff.1 hi
      have hpin := hin p (hmem p (by simp)) axis seg hseg
      -- left child
      obtain ⟨l', tl, el, hlp, hli, hlb, hls, hlbox, hlax, hld⟩ :=
        ih l (depth + 1) (box.set axis (seg.1, x p axis)) (by omega) (by simp [hbox])
          (by omega) (by
            intro i hi
            exact (hin i (hmem i (by simp [hi]))).set
              ⟨(hin i (hmem i (by simp [hi])) axis seg hseg).1, hL _ _ _ (hl i hi)⟩)
      -- right child
      obtain ⟨r', tr, er, hrp, hri, hrb, hrs, hrbox, hrax, hrd⟩ :=
        ih r (depth + 1) (box.set axis (x p axis, seg.2)) (by omega) (by simp [hbox])
          (by omega) (by
            intro i hi
            exact (hin i (hmem i (by simp [hi]))).set
              ⟨hR _ _ _ (hr i hi), (hin i (hmem i (by simp [hi])) axis seg hseg).2⟩)
      have hlt : axis < box.length := by omega
      have hg1 : ∀ s : K × K, (box.set axis s)[axis]? = some s := fun s => by simp [hlt]
      have hrestore : (box.set axis (seg.1, seg.2)) = box := set_self hseg
      refine ⟨l' ++ p :: r', .node p axis box tl tr, ?_, ?_, ?_, rfl, ?_, ?_, ?_, ?_⟩
      · simp only [eq, Option.bind_eq_bind, Option.bind_some, updUpper_eq hseg, el, hseg,
          updUpper_eq (hg1 _), List.set_set, updLower_eq hseg, updLower_eq (hg1 _), er, hrestore]
      · exact (List.Perm.append hlp (hrp.cons p)).trans hperm
      · simp [Tree.indices, hli, hri]
      · refine ⟨?_, ?_, hls, hrs⟩
        · intro i hi; rw [hli] at hi; exact hl i (hlp.mem_iff.1 hi)
        · intro i hi; rw [hri] at hi; exact hr i (hrp.mem_iff.1 hi)
      · refine ⟨?_, ?_, ?_, hlbox, hrbox⟩
        · intro i hi
          simp only [Tree.indices, hli, hri] at hi
          exact hin i (hperm.mem_iff.1
            ((List.Perm.append hlp (hrp.cons p)).mem_iff.1 hi))
        · rw [hlb]; exact SubBox.set hrefl hseg (hrefl _) hpin.2
        · rw [hrb]; exact SubBox.set hrefl hseg hpin.1 (hrefl _)
      · exact ⟨hax, hlax, hrax⟩
      · intro s hs
        simp only [Tree.subtrees, List.mem_cons, List.mem_append] at hs
        rcases hs with rfl | hs | hs
        · refine ⟨hdepth, ?_⟩
          show bucketSize < (tl.indices ++ p :: tr.indices).length
          have h1 := hlp.length_eq
          have h2 := hrp.length_eq
          simp [hli, hri, h1, h2]; omega
        · exact hld s hs
        · exact hrd s hs
    · rw [if_neg hc]
      refine ⟨idx, .leaf idx box, rfl, List.Perm.refl _, rfl, rfl, trivial, hin, trivial, ?_⟩
      intro s hs
      simp only [Tree.subtrees, List.mem_singleton] at hs
      subst hs
      refine ⟨hdepth, ?_⟩
      show idx.length ≤ bucketSize ∨ depth = maxDepth
      omega

/-! ### tight bounds -/

theorem tightStep_length {K : Type} [LT K] [DecidableLT K] (x : Nat → Nat → K) (box : Box K) (i : Nat) :
    (tightStep x box i).length = box.length := by
  simp [tightStep]

theorem tightStep_get (x : Nat → Nat → K) (box : Box K) (i f : Nat) (seg : K × K)
    (h : box[f]? = some seg) :
    (tightStep x box i)[f]? = some (min seg.1 (x i f), max seg.2 (x i f)) := by
  simp only [tightStep, List.getElem?_mapIdx, h, Option.map_some, Option.some.injEq]
  rcases lt_trichotomy (x i f) seg.1 with h1 | h1 | h1
  · simp only [h1, if_true, min_eq_right h1.le]
    split
    · rename_i h2; simp only [max_eq_right (le_of_lt h2)]
    · rename_i h2; simp only [max_eq_left (not_lt.1 h2)]
  · simp only [h1, lt_irrefl, if_false, min_self]
    split
    · rename_i h2; simp only [max_eq_right (le_of_lt h2)]
    · rename_i h2; simp only [max_eq_left (not_lt.1 h2)]
  · simp only [not_lt.2 h1.le, if_false, min_eq_left h1.le]
    split
    · rename_i h2; simp only [max_eq_right (le_of_lt h2)]
    · rename_i h2; simp only [max_eq_left (not_lt.1 h2)]

theorem tightFold_length {K : Type} [LT K] [DecidableLT K] (x : Nat → Nat → K) (idx : List Nat) (box : Box K) :
    (idx.foldl (tightStep x) box).length = box.length := by
  induction idx generalizing box with
  | nil => rfl
  | cons i idx ih => simp only [List.foldl_cons]; rw [ih, tightStep_length]

theorem tightFold_get (x : Nat → Nat → K) (f : Nat) : ∀ (idx : List Nat) (box : Box K)
    (seg : K × K), box[f]? = some seg →
    ∃ lo hi, (idx.foldl (tightStep x) box)[f]? = some (lo, hi) ∧
      lo ≤ seg.1 ∧ seg.2 ≤ hi ∧ (∀ i ∈ idx, lo ≤ x i f ∧ x i f ≤ hi) ∧
      (lo = seg.1 ∨ ∃ i ∈ idx, lo = x i f) ∧ (hi = seg.2 ∨ ∃ i ∈ idx, hi = x i f) := by
  intro idx
  induction idx with
  | nil => intro box seg h; exact ⟨seg.1, seg.2, h, le_refl _, le_refl _, by simp, by simp, by simp⟩
  | cons i idx ih =>
    intro box seg h
    obtain ⟨lo, hi, e, h1, h2, h3, h4, h5⟩ := ih _ _ (tightStep_get x box i f seg h)
    simp only [le_min_iff, max_le_iff] at h1 h2
    refine ⟨lo, hi, e, h1.1, h2.1, ?_, ?_, ?_⟩
    · intro j hj
      rcases List.mem_cons.1 hj with rfl | hj
      · exact ⟨h1.2, h2.2⟩
      · exact h3 j hj
    · rcases h4 with h4 | ⟨j, hj, h4⟩
      · dsimp only at h4
        rcases min_choice seg.1 (x i f) with h6 | h6
        · left; rw [h4, h6]
        · right; exact ⟨i, by simp, by rw [h4, h6]⟩
      · right; exact ⟨j, by simp [hj], h4⟩
    · rcases h5 with h5 | ⟨j, hj, h5⟩
      · dsimp only at h5
        rcases max_choice seg.2 (x i f) with h6 | h6
        · left; rw [h5, h6]
        · right; exact ⟨i, by simp, by rw [h5, h6]⟩
      · right; exact ⟨j, by simp [hj], h5⟩

theorem tightBound_length {K : Type} [LT K] [DecidableLT K] (x : Nat → Nat → K) (nf : Nat) (vmax vlowest : K) (idx : List Nat) :
    (tightBound x nf vmax vlowest idx).length = nf := by
  unfold tightBound; rw [tightFold_length]; simp

theorem tightBound_inBox (x : Nat → Nat → K) (nf : Nat) (vmax vlowest : K) (idx : List Nat) :
    ∀ i ∈ idx, InBox (· ≤ ·) x (tightBound x nf vmax vlowest idx) i := by
  intro i hi f seg hf
  have hlt : f < nf := by
    have := lt_of_getElem? hf; rwa [tightBound_length] at this
  obtain ⟨lo, hi', e, _, _, h3, _⟩ := tightFold_get x f idx
    (List.replicate nf (vmax, vlowest)) (vmax, vlowest) (by simp [hlt])
  unfold tightBound at hf
  rw [e] at hf
  simp only [Option.some.injEq] at hf
  subst hf
  exact h3 i hi

end Verif.KDTree
