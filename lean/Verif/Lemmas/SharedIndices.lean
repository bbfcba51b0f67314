import Verif.Model.SharedIndices
import Verif.Lemmas.Balance
import Verif.Lemmas.AnyOrder
import Mathlib.Order.MinMax

/-
Lemmas for trees over a shared index array.
-/

namespace Verif.KDTree

open Verif.Sorting

set_option linter.unusedSectionVars false

theorem Tree.size_eq {K : Type} (t : Tree K) : t.size = t.indices.length := by
  induction t with
  | leaf idx box => rfl
  | node p a box l r ihl ihr =>
    simp only [Tree.size, Tree.indices, List.length_append, List.length_cons, ihl, ihr]
    omega

/-- The same pivots, axes and boxes, and the same samples in every leaf, in any order. -/
def Tree.Same {K : Type} : Tree K → Tree K → Prop
  | .leaf idx box, .leaf idx' box' => idx.Perm idx' ∧ box = box'
  | .node p a box l r, .node p' a' box' l' r' =>
    p = p' ∧ a = a' ∧ box = box' ∧ Tree.Same l l' ∧ Tree.Same r r'
  | _, _ => False

theorem Tree.Same.perm {K : Type} : ∀ {t t' : Tree K}, t.Same t' → t.indices.Perm t'.indices
  | .leaf _ _, .leaf _ _, h => h.1
  | .node _ _ _ _ _, .node _ _ _ _ _, h => by
    obtain ⟨rfl, _, _, h1, h2⟩ := h
    exact List.Perm.append h1.perm (h2.perm.cons _)
  | .leaf _ _, .node _ _ _ _ _, h => h.elim
  | .node _ _ _ _ _, .leaf _ _, h => h.elim

theorem Tree.Same.splitBy {K : Type} {L R : Nat → Nat → Nat → Prop} :
    ∀ {t t' : Tree K}, t.Same t' → t.SplitBy L R → t'.SplitBy L R
  | .leaf _ _, .leaf _ _, _, _ => trivial
  | .node _ _ _ _ _, .node _ _ _ _ _, h, hs => by
    obtain ⟨rfl, rfl, _, h1, h2⟩ := h
    exact ⟨fun i hi => hs.1 i (h1.perm.mem_iff.2 hi), fun i hi => hs.2.1 i (h2.perm.mem_iff.2 hi),
      h1.splitBy hs.2.2.1, h2.splitBy hs.2.2.2⟩
  | .leaf _ _, .node _ _ _ _ _, h, _ => h.elim
  | .node _ _ _ _ _, .leaf _ _, h, _ => h.elim

theorem Tree.Same.axesLt {K : Type} {nf : Nat} :
    ∀ {t t' : Tree K}, t.Same t' → t.AxesLt nf → t'.AxesLt nf
  | .leaf _ _, .leaf _ _, _, _ => trivial
  | .node _ _ _ _ _, .node _ _ _ _ _, h, hs => by
    obtain ⟨_, rfl, _, h1, h2⟩ := h
    exact ⟨hs.1, h1.axesLt hs.2.1, h2.axesLt hs.2.2⟩
  | .leaf _ _, .node _ _ _ _ _, h, _ => h.elim
  | .node _ _ _ _ _, .leaf _ _, h, _ => h.elim

/-- What a tree sees when its range holds a list of the right length. -/
theorem view_fits {K : Type} (t : Tree K) : ∀ (P M Q : List Nat), M.length = t.indices.length →
    ∃ t', (t.shape P.length).view (P ++ M ++ Q) = some t' ∧ t'.indices = M := by
  induction t with
  | leaf idx box =>
    intro P M Q h
    have h' : M.length = idx.length := h
    refine ⟨.leaf M box, ?_, rfl⟩
    simp only [Tree.shape, Shape.view]
    rw [if_pos (by simp; omega), List.append_assoc, List.drop_left]
    rw [show P.length + idx.length - P.length = M.length by omega, List.take_left]
  | node p a box l r ihl ihr =>
    intro P M Q h
    simp only [Tree.indices, List.length_append, List.length_cons] at h
    obtain ⟨A, q, B, rfl, hA⟩ : ∃ A q B, M = A ++ q :: B ∧ A.length = l.indices.length :=
      ⟨M.take l.indices.length, M[l.indices.length]'(by omega), M.drop (l.indices.length + 1),
        by rw [← List.drop_eq_getElem_cons, List.take_append_drop], by simp; omega⟩
    simp only [List.length_append, List.length_cons] at h
    obtain ⟨l', hl, hli⟩ := ihl P A (q :: B ++ Q) hA
    obtain ⟨r', hr, hri⟩ := ihr (P ++ A ++ [q]) B Q (by omega)
    refine ⟨.node q a box l' r', ?_, by simp [Tree.indices, hli, hri]⟩
    have e1 : P ++ A ++ (q :: B ++ Q) = P ++ (A ++ q :: B) ++ Q := by simp
    have e2 : P ++ A ++ [q] ++ B ++ Q = P ++ (A ++ q :: B) ++ Q := by simp
    have e3 : (P ++ A ++ [q]).length = P.length + l.size + 1 := by simp [Tree.size_eq, hA]; omega
    have e4 : (P ++ (A ++ q :: B) ++ Q)[P.length + l.size]? = some q := by
      rw [← e1, Tree.size_eq, ← hA]
      simp
    rw [e1] at hl
    rw [e2, e3] at hr
    simp only [Tree.shape, Shape.view, e4, hl, hr, Option.bind_eq_bind, Option.bind_some]

/-- What a tree sees right after its construction: itself. -/
theorem view_self {K : Type} (t : Tree K) : ∀ (P Q : List Nat),
    (t.shape P.length).view (P ++ t.indices ++ Q) = some t := by
  induction t with
  | leaf idx box =>
    intro P Q
    simp only [Tree.shape, Shape.view, Tree.indices]
    rw [if_pos (by simp), List.append_assoc, List.drop_left]
    rw [show P.length + idx.length - P.length = idx.length by omega, List.take_left]
  | node p a box l r ihl ihr =>
    intro P Q
    have hl := ihl P (p :: r.indices ++ Q)
    have hr := ihr (P ++ l.indices ++ [p]) Q
    have e1 : P ++ l.indices ++ (p :: r.indices ++ Q) = P ++ (l.indices ++ p :: r.indices) ++ Q := by simp
    have e2 : P ++ l.indices ++ [p] ++ r.indices ++ Q = P ++ (l.indices ++ p :: r.indices) ++ Q := by simp
    have e3 : (P ++ l.indices ++ [p]).length = P.length + l.size + 1 := by simp [Tree.size_eq]; omega
    have e4 : (P ++ (l.indices ++ p :: r.indices) ++ Q)[P.length + l.size]? = some p := by
      rw [← e1, Tree.size_eq]
      simp
    rw [e1] at hl
    rw [e2, e3] at hr
    simp only [Tree.shape, Shape.view, Tree.indices, e4, hl, hr, Option.bind_eq_bind, Option.bind_some]

variable {K : Type} [LinearOrder K]

theorem anyOrder_good {eqv : K → K → Bool} (hg : GoodEq eqv) : AnyOrder eqv :=
  ⟨fun _ => lt_irrefl _, fun a _ _ => hg.refl a⟩

/-- The tight bound does not depend on the order of the samples. -/
theorem tightBound_perm (x : Nat → Nat → K) (nf : Nat) (vmax vlowest : K) {idx idx' : List Nat}
    (h : idx.Perm idx') : tightBound x nf vmax vlowest idx = tightBound x nf vmax vlowest idx' := by
  have hstep : ∀ (v : K) (seg : K × K),
      (let seg := if v < seg.1 then (v, seg.2) else seg
       if v > seg.2 then (seg.1, v) else seg) = (min v seg.1, max v seg.2) := by
    intro v seg
    rcases lt_or_ge v seg.1 with h1 | h1 <;> rcases lt_or_ge seg.2 v with h2 | h2
    · simp [h1, h2, h1.le, h2.le]
    · simp [h1, not_lt.2 h2, h1.le, h2]
    · simp [not_lt.2 h1, h2, h1, h2.le]
    · simp [not_lt.2 h1, not_lt.2 h2, h1, h2]
  have hcomm : ∀ (box : Box K) (i j : Nat), tightStep x (tightStep x box i) j = tightStep x (tightStep x box j) i := by
    intro box i j
    refine List.ext_getElem? fun f => ?_
    unfold tightStep
    simp only [List.getElem?_mapIdx, Option.map_map, hstep]
    cases box[f]? with
    | none => rfl
    | some seg => simp [min_left_comm, max_left_comm]
  haveI : RightCommutative (tightStep x) := ⟨hcomm⟩
  exact h.foldl_eq _

/-- The split when no two samples are equal on the axis. -/
theorem quickselectMedian_apart {eqv : K → K → Bool} (hg : GoodEq eqv) {key : Nat → K} {idx : List Nat}
    (hne : idx ≠ []) (hnd : idx.Nodup)
    (hap : ∀ a ∈ idx, ∀ b ∈ idx, a ≠ b → eqv (key a) (key b) = false) :
    ∃ l p r, quickselectMedian eqv key idx = some (l, p, r) ∧ (l ++ p :: r).Perm idx ∧
      l.length = (idx.length - 1) / 2 ∧ (∀ i ∈ l, key i < key p) ∧ ∀ i ∈ r, key p < key i := by
  have hpos : 0 < idx.length := List.length_pos_iff.2 hne
  have hk : (idx.length - 1) / 2 < idx.length := by omega
  obtain ⟨P, m, Q, e, hlen, hperm, h1, h2⟩ := quickselect_spec hg key idx _ hk
  obtain ⟨A, B, hAB, es, hB, hA⟩ := shiftLeft_spec eqv key (key m) (m :: Q) _ P rfl
  have hget : (P ++ m :: Q)[(idx.length - 1) / 2]? = some m := by rw [← hlen]; simp
  have hmem : ∀ a ∈ P ++ m :: Q, a ∈ idx := fun a ha => hperm.mem_iff.1 ha
  have hnd' : (P ++ m :: Q).Nodup := hperm.nodup_iff.2 hnd
  have hPm : ∀ a ∈ P, a ≠ m := by
    rintro a ha rfl
    exact (List.nodup_append.1 hnd').2.2 a ha a (by simp) rfl
  have hQm : ∀ a ∈ Q, a ≠ m := by
    rintro a ha rfl
    exact (List.nodup_cons.1 (List.nodup_append.1 hnd').2.1).1 ha
  have hPe : ∀ a ∈ P, eqv (key a) (key m) = false := fun a ha =>
    hap a (hmem a (by simp [ha])) m (hmem m (by simp)) (hPm a ha)
  have hQe : ∀ a ∈ Q, eqv (key m) (key a) = false := fun a ha =>
    hap m (hmem m (by simp)) a (hmem a (by simp [ha])) (hQm a ha).symm
  have hBe : B = [] := by
    by_contra hBne
    obtain ⟨b, hb⟩ := List.exists_mem_of_ne_nil _ hBne
    have := hPe b (by rw [hAB]; simp [hb])
    rw [hB b hb] at this
    simp at this
  subst hBe
  simp only [List.append_nil] at hAB
  subst hAB
  refine ⟨P, m, Q, ?_, hperm, hlen, ?_, ?_⟩
  · rw [hlen] at es
    unfold quickselectMedian
    simp only [e, Option.bind_eq_bind, Option.bind_some, hget, es]
    rw [← hlen]
    simp
  · intro i hi
    rcases h1 i hi with h | h
    · refine lt_of_le_of_ne h fun he => ?_
      have := hPe i hi
      rw [he, hg.refl] at this
      simp at this
    · rw [hPe i hi] at h; simp at h
  · intro i hi
    rcases h2 i hi with h | h
    · refine lt_of_le_of_ne h fun he => ?_
      have := hQe i hi
      rw [he, hg.refl] at this
      simp at this
    · rw [hQe i hi] at h; simp at h

/-- A range that is split already, with its median in the middle, is left as it is. -/
theorem quickselectMedian_settled {eqv : K → K → Bool} {key : Nat → K} {l r : List Nat} {p : Nat}
    (hlen : l.length = (l.length + r.length) / 2) (hl : ∀ i ∈ l, key i < key p ∧ eqv (key i) (key p) = false)
    (hr : ∀ i ∈ r, key p < key i) : quickselectMedian eqv key (l ++ p :: r) = some (l, p, r) := by
  have hN : (l ++ p :: r).length = l.length + r.length + 1 := by simp; omega
  have hp : (l ++ p :: r)[l.length]? = some p := by simp
  have hmid : ((l ++ p :: r).length - 1) / 2 = l.length := by rw [hN]; omega
  have hbelow : ∀ (i : Nat) (z : Nat), i < l.length → (l ++ p :: r)[i]? = some z → key z < key p := by
    intro i z hi hz
    rw [List.getElem?_append_left hi] at hz
    exact (hl z (List.mem_of_getElem? hz)).1
  have habove : ∀ (i : Nat) (z : Nat), l.length < i → (l ++ p :: r)[i]? = some z → key p < key z := by
    intro i z hi hz
    rw [List.getElem?_append_right hi.le, show i - l.length = (i - l.length - 1) + 1 by omega,
      List.getElem?_cons_succ] at hz
    exact hr z (List.mem_of_getElem? hz)
  -- the pivot is the middle
  have hpv : medianIndexOfThree key (l ++ p :: r) = some l.length := by
    by_cases h3 : (l ++ p :: r).length < 3
    · unfold medianIndexOfThree
      rw [if_pos h3]
      congr 1
      omega
    · obtain ⟨a, b, c, u, v, w, e, hh, ha, hc, hb, h1, h2⟩ := medianIndexOfThree_spec key (l ++ p :: r) (by omega)
      rw [e]
      rw [hmid] at hh
      have hkey : ∀ (i z : Nat), i = l.length → (l ++ p :: r)[i]? = some z → z = p := by
        rintro i z rfl hz
        rw [hp] at hz
        exact (Option.some.inj hz).symm
      congr 1
      by_contra hne
      rcases hh with h | h | h | h | h | h
      · have := hkey _ _ h.2.1 hb
        subst this
        exact absurd (habove c v (by omega) hc) (not_lt.2 h2)
      · omega
      · have := hkey _ _ h.2.1 ha
        subst this
        exact absurd (habove c v (by omega) hc) (not_lt.2 (h2.trans (hbelow b w (by omega) hb).le))
      · omega
      · have := hkey _ _ h.2.1 ha
        subst this
        exact absurd (hbelow c v (by omega) hc) (not_lt.2 h1)
      · have := hkey _ _ h.2.1 hb
        subst this
        exact absurd (hbelow c v (by omega) hc) (not_lt.2 ((habove a u (by omega) ha).le.trans h1))
  have hpart : partition eqv key (l ++ p :: r) l.length = some (l ++ p :: r, l.length) := by
    unfold partition
    split
    · rfl
    · rw [hp]
      simp only [Option.bind_eq_bind, Option.bind_some]
      unfold partitionLoop
      obtain ⟨L, y, e1, _, hL, hLy, hLk, _⟩ := scanUp_spec (key := key) (pivot := key p)
        ((l ++ p :: r).length + 1) 0 l.length p (by omega) hp (lt_irrefl _) (by omega)
      obtain ⟨R, z, e2, hR, _, hRz, hRk, _⟩ := scanDown_spec (key := key) (pivot := key p)
        (l ++ p :: r).length l.length p (by omega) le_rfl hp (lt_irrefl _)
      have h1 : L = l.length := by
        by_contra hne
        exact absurd (hbelow L y (by omega) hLy) (not_lt.2 hLk)
      have h2 : R = l.length := by
        by_contra hne
        exact absurd (habove R z (by omega) hRz) (not_lt.2 hRk)
      subst h1
      rw [e1, e2]
      simp [h2]
  have hsel : quickselect eqv key (l ++ p :: r) l.length = some (l ++ p :: r, l.length, l.length + 1) := by
    unfold quickselect
    rw [if_neg (by omega)]
    unfold quickselectLoop
    by_cases h0 : 0 = (l ++ p :: r).length - 1
    · rw [if_pos h0]
      have hl0 : l.length = 0 := by omega
      rw [← h0, hl0]
    · rw [if_neg h0]
      have h1 := onRange_append [] (l ++ p :: r) [] (fun sub => partition eqv key sub l.length)
      simp only [List.nil_append, List.append_nil, List.length_nil, Nat.zero_add] at h1
      simp only [show (l ++ p :: r).length - 1 + 1 = (l ++ p :: r).length by omega, List.take_length, List.drop_zero, hpv,
        Option.bind_eq_bind, Option.bind_some, h1, hpart, Option.map_some, Nat.zero_add, if_true]
  have hshift : shiftLeft eqv key (key p) (l ++ p :: r) l.length = some l.length := by
    rcases hcase : l.length with _ | j
    · rfl
    · obtain ⟨y, hy⟩ : ∃ y, l[j]? = some y := ⟨l[j]'(by omega), List.getElem?_eq_getElem _⟩
      have h1 : (l ++ p :: r)[j]? = some y := by rw [List.getElem?_append_left (by omega), hy]
      simp [shiftLeft, h1, (hl y (List.mem_of_getElem? hy)).2]
  unfold quickselectMedian
  rw [hmid]
  simp only [hsel, Option.bind_eq_bind, Option.bind_some, hp, hshift]
  simp

/-- After a construction, in an array where the nodes still have their pivots and the leaves their samples,
any later construction with the same axis policy leaves it so. -/
theorem build_keeps {eqv : K → K → Bool} (hg : GoodEq eqv) {x : Nat → Nat → K}
    {policy : List Nat → Nat → Box K → Nat} {bucketSize maxDepth nf : Nat}
    (hpol : ∀ idx d box, policy idx d box < nf)
    (hperm : ∀ idx idx' d box, idx.Perm idx' → policy idx d box = policy idx' d box) :
    ∀ (fuel : Nat) (idx : List Nat) (depth : Nat) (box : Box K), idx.length < fuel →
      box.length = nf → idx.Nodup →
      (∀ axis, ∀ a ∈ idx, ∀ b ∈ idx, a ≠ b → eqv (x a axis) (x b axis) = false) →
      ∃ i1 t1, build eqv x policy bucketSize maxDepth fuel idx depth box = some (i1, t1, box) ∧
        i1.Perm idx ∧ t1.indices = i1 ∧ t1.AxesLt nf ∧ t1.Ordered x ∧
        ∀ (bucketSize' maxDepth' fuel' : Nat) (t' : Tree K), t1.Same t' → depth ≤ maxDepth' →
          t'.indices.length < fuel' →
          ∃ i2 t2 t'', build eqv x policy bucketSize' maxDepth' fuel' t'.indices depth box =
              some (i2, t2, box) ∧ t1.Same t'' ∧ t''.indices = i2 := by
  intro fuel
  induction fuel with
  | zero => intro idx depth box h; omega
  | succ fuel ih =>
    intro idx depth box hfuel hbox hnd hap
    by_cases hc : depth < maxDepth ∧ idx.length > bucketSize
    · have hne : idx ≠ [] := by intro h; simp [h] at hc
      have hax : policy idx depth box < nf := hpol _ _ _
      obtain ⟨l, p, r, eq, hpq, hll, hl, hr⟩ :=
        quickselectMedian_apart hg (key := fun i => x i (policy idx depth box)) hne hnd (hap _)
      generalize hA : policy idx depth box = axis at *
      have hlen : l.length + 1 + r.length = idx.length := by
        have := hpq.length_eq; simp at this; omega
      obtain ⟨seg, hseg⟩ : ∃ seg, box[axis]? = some seg :=
        ⟨box[axis]'(by omega), List.getElem?_eq_getElem _⟩
      have hmem : ∀ i, i ∈ l ++ p :: r → i ∈ idx := fun i hi => hpq.mem_iff.1 hi
      have hndlr := hpq.nodup_iff.2 hnd
      obtain ⟨l', tl, el, hlp, hli, hla, hlo, hlk⟩ :=
        ih l (depth + 1) (box.set axis (seg.1, x p axis)) (by omega) (by simp [hbox])
          (List.nodup_append.1 hndlr).1
          (fun axis a ha b hb => hap axis a (hmem a (by simp [ha])) b (hmem b (by simp [hb])))
      obtain ⟨r', tr, er, hrp, hri, hra, hro, hrk⟩ :=
        ih r (depth + 1) (box.set axis (x p axis, seg.2)) (by omega) (by simp [hbox])
          (List.nodup_cons.1 (List.nodup_append.1 hndlr).2.1).2
          (fun axis a ha b hb => hap axis a (hmem a (by simp [ha])) b (hmem b (by simp [hb])))
      have hlt : axis < box.length := by omega
      have hg1 : ∀ s : K × K, (box.set axis s)[axis]? = some s := fun s => by simp [hlt]
      have hrestore : (box.set axis (seg.1, seg.2)) = box := set_self hseg
      have hpi : (l' ++ p :: r').Perm idx := (List.Perm.append hlp (hrp.cons p)).trans hpq
      refine ⟨l' ++ p :: r', .node p axis box tl tr, ?_, hpi, by simp [Tree.indices, hli, hri],
        ⟨hax, hla, hra⟩, ⟨?_, ?_, hlo, hro⟩, ?_⟩
      · unfold build
        rw [if_pos hc]
        simp only [hA, eq, Option.bind_eq_bind, Option.bind_some, updUpper_eq hseg, el, hseg,
          updUpper_eq (hg1 _), List.set_set, updLower_eq hseg, updLower_eq (hg1 _), er, hrestore]
      · intro i hi
        exact hl i (hlp.mem_iff.1 (hli ▸ hi))
      · intro i hi
        exact (hr i (hrp.mem_iff.1 (hri ▸ hi))).le
      · intro bucketSize' maxDepth' fuel' t' hs hdep hfuel'
        cases t' with
        | leaf idx' box' => exact hs.elim
        | node p' axis' box' ul ur =>
          obtain ⟨rfl, rfl, rfl, hsl, hsr⟩ := hs
          obtain ⟨fuel', rfl⟩ : ∃ f, fuel' = f + 1 := ⟨fuel' - 1, by omega⟩
          have hul : ul.indices.Perm l := hsl.perm.symm.trans (hli ▸ hlp)
          have hur : ur.indices.Perm r := hsr.perm.symm.trans (hri ▸ hrp)
          have hpM : (ul.indices ++ p :: ur.indices).Perm idx :=
            (List.Perm.append hul (hur.cons p)).trans hpq
          simp only [Tree.indices]
          by_cases hc2 : depth < maxDepth' ∧ (ul.indices ++ p :: ur.indices).length > bucketSize'
          · have hset : quickselectMedian eqv (fun i => x i axis) (ul.indices ++ p :: ur.indices) =
                some (ul.indices, p, ur.indices) := by
              refine quickselectMedian_settled ?_ ?_ ?_
              · rw [hul.length_eq, hur.length_eq]; omega
              · intro i hi
                have hi' := hul.mem_iff.1 hi
                refine ⟨hl i hi', hap axis i (hmem i (by simp [hi'])) p (hmem p (by simp)) ?_⟩
                rintro rfl
                exact (lt_irrefl _ (hl i hi'))
              · intro i hi
                exact hr i (hur.mem_iff.1 hi)
            simp only [Tree.indices, List.length_append, List.length_cons] at hfuel'
            obtain ⟨i2l, t2l, vl, e2l, hvl, hil⟩ := hlk bucketSize' maxDepth' fuel' ul hsl (by omega) (by omega)
            obtain ⟨i2r, t2r, vr, e2r, hvr, hir⟩ := hrk bucketSize' maxDepth' fuel' ur hsr (by omega) (by omega)
            refine ⟨i2l ++ p :: i2r, .node p axis box t2l t2r, .node p axis box vl vr, ?_,
              ⟨rfl, rfl, rfl, hvl, hvr⟩, by simp [Tree.indices, hil, hir]⟩
            unfold build
            rw [if_pos hc2]
            have hA2 : policy (ul.indices ++ p :: ur.indices) depth box = axis :=
              (hperm _ _ _ _ hpM).trans hA
            simp only [hA2, hset, Option.bind_eq_bind, Option.bind_some, updUpper_eq hseg, e2l, hseg,
              updUpper_eq (hg1 _), List.set_set, updLower_eq hseg, updLower_eq (hg1 _), e2r, hrestore]
          · refine ⟨_, .leaf (ul.indices ++ p :: ur.indices) box, .node p axis box ul ur, ?_,
              ⟨rfl, rfl, rfl, hsl, hsr⟩, rfl⟩
            unfold build
            rw [if_neg hc2]
            rfl
    · refine ⟨idx, .leaf idx box, ?_, List.Perm.refl _, rfl, trivial, trivial, ?_⟩
      · unfold build
        rw [if_neg hc]
      · intro bucketSize' maxDepth' fuel' t' hs hdep hfuel'
        cases t' with
        | node p' axis' box' ul ur => exact hs.elim
        | leaf idx' box' =>
          obtain ⟨hp', rfl⟩ := hs
          obtain ⟨i2, t2, h1, h2, h3, _⟩ := build_spec (le := fun _ _ => True) (fun _ => trivial)
            (fun _ _ _ _ => trivial) (fun _ _ _ _ => trivial) (splitsBy_any (anyOrder_good hg) x) policy
            bucketSize' maxDepth' nf hpol fuel' idx' depth box hfuel' hbox hdep
            (fun _ _ _ _ _ => ⟨trivial, trivial⟩)
          exact ⟨i2, t2, .leaf i2 box, h1, ⟨hp'.trans h2.symm, rfl⟩, rfl⟩

theorem Tree.Same.shape {K : Type} : ∀ {t t' : Tree K}, t.Same t' → ∀ first, t.shape first = t'.shape first
  | .leaf _ _, .leaf _ _, h, first => by
    obtain ⟨hp, rfl⟩ := h
    simp [Tree.shape, hp.length_eq]
  | .node _ _ _ _ _, .node _ _ _ _ _, h, first => by
    obtain ⟨_, rfl, rfl, h1, h2⟩ := h
    simp only [Tree.shape]
    rw [Tree.size_eq, Tree.size_eq, h1.perm.length_eq, h1.shape, h2.shape]
  | .leaf _ _, .node _ _ _ _ _, h, _ => h.elim
  | .node _ _ _ _ _, .leaf _ _, h, _ => h.elim

theorem Tree.Same.refl {K : Type} (t : Tree K) : t.Same t := by
  induction t with
  | leaf idx box => exact ⟨List.Perm.refl _, rfl⟩
  | node p a box l r ihl ihr => exact ⟨rfl, rfl, rfl, ihl, ihr⟩

end Verif.KDTree
