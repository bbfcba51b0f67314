import Verif.Spec.Balance
import Verif.Lemmas.KDTree
import Mathlib.Data.Nat.Log

namespace Verif.KDTree

open Verif.Sorting

set_option linter.unusedSectionVars false

variable {K : Type} [LinearOrder K]

/-- Sizes of the two sides of a split. -/
theorem quickselectMedian_sizes {eqv : K → K → Bool} (hg : GoodEq eqv) {key : Nat → K}
    {idx l r : List Nat} {p : Nat} (hne : idx ≠ [])
    (h : quickselectMedian eqv key idx = some (l, p, r)) :
    (l ++ p :: r).Perm idx ∧ l.length ≤ (idx.length - 1) / 2 ∧
      (idx.Nodup → (∀ a ∈ idx, ∀ b ∈ idx, a ≠ b → eqv (key a) (key b) = false) →
        l.length = (idx.length - 1) / 2) ∧
      ((∀ a ∈ idx, ∀ b ∈ idx, eqv (key a) (key b) = true) → l = []) := by
  have hpos : 0 < idx.length := List.length_pos_iff.2 hne
  have hk : (idx.length - 1) / 2 < idx.length := by omega
  obtain ⟨P, m, Q, e, hlen, hperm, _, _⟩ := quickselect_spec hg key idx _ hk
  obtain ⟨A, B, hAB, es, hB, hA⟩ := shiftLeft_spec eqv key (key m) (m :: Q) _ P rfl
  have hget : (P ++ m :: Q)[(idx.length - 1) / 2]? = some m := by rw [← hlen]; simp
  rw [hlen] at es
  have hR : P ++ m :: Q = A ++ (B ++ m :: Q) := by rw [hAB]; simp
  unfold quickselectMedian at h
  simp only [e, Option.bind_eq_bind, Option.bind_some, hget, es] at h
  rw [hR] at h
  have hAlen : A.length + B.length = (idx.length - 1) / 2 := by
    rw [← hlen, hAB, List.length_append]
  have hl : l = A := by
    cases hp : (A ++ (B ++ m :: Q))[A.length]? with
    | none => rw [hp] at h; simp at h
    | some p' =>
      rw [hp] at h
      simp only [Option.bind_some, Option.some.injEq, Prod.mk.injEq] at h
      rw [← h.1]; simp
  have hall : l ++ p :: r = A ++ (B ++ m :: Q) := by
    cases hp : (A ++ (B ++ m :: Q))[A.length]? with
    | none => rw [hp] at h; simp at h
    | some p' =>
      rw [hp] at h
      simp only [Option.bind_some, Option.some.injEq, Prod.mk.injEq] at h
      obtain ⟨h1, h2, h3⟩ := h
      rw [← h1, ← h2, ← h3]
      have hlt : A.length < (A ++ (B ++ m :: Q)).length := by simp
      have hp' : (A ++ (B ++ m :: Q))[A.length] = p' := by
        rw [List.getElem?_eq_getElem hlt] at hp
        exact Option.some.inj hp
      rw [← hp', ← List.drop_eq_getElem_cons hlt, List.take_append_drop]
  refine ⟨by rw [hall, ← hR]; exact hperm, by rw [hl]; omega, ?_, ?_⟩
  · intro hnd hdist
    rw [hl]
    suffices B = [] by rw [this] at hAlen; simpa using hAlen
    by_contra hBne
    obtain ⟨b, hb⟩ := List.exists_mem_of_ne_nil _ hBne
    have hmem : ∀ a ∈ P ++ m :: Q, a ∈ idx := fun a ha => hperm.mem_iff.1 ha
    have hnd' : (P ++ m :: Q).Nodup := hperm.nodup_iff.2 hnd
    have hbP : b ∈ P := by rw [hAB]; simp [hb]
    have hbm : b ≠ m := by
      rintro rfl
      have := List.nodup_append.1 hnd'
      exact this.2.2 b hbP b (by simp) rfl
    have h1 := hdist b (hmem b (by simp [hbP])) m (hmem m (by simp)) hbm
    rw [hB b hb] at h1
    simp at h1
  · intro heq
    rw [hl]
    by_contra hAne
    have h1 := hA A.dropLast (A.getLast hAne) (List.dropLast_append_getLast hAne).symm
    have hmem : ∀ a ∈ P ++ m :: Q, a ∈ idx := fun a ha => hperm.mem_iff.1 ha
    have h2 := heq (A.getLast hAne) (hmem _ (by rw [hR]; simp)) m (hmem m (by simp))
    rw [h2] at h1
    simp at h1

/-- Inversion of one level of the construction. -/
theorem build_inv {eqv : K → K → Bool} {x : Nat → Nat → K} {policy : List Nat → Nat → Box K → Nat}
    {bucketSize maxDepth fuel depth : Nat} {idx idx' : List Nat} {box box' : Box K} {t : Tree K}
    (h : build eqv x policy bucketSize maxDepth (fuel + 1) idx depth box = some (idx', t, box')) :
    (¬ (depth < maxDepth ∧ idx.length > bucketSize) ∧ t = .leaf idx box) ∨
    (depth < maxDepth ∧ idx.length > bucketSize ∧ ∃ axis l p r l' r' tl tr b1 b2 b3 b4,
      quickselectMedian eqv (fun i => x i axis) idx = some (l, p, r) ∧
      build eqv x policy bucketSize maxDepth fuel l (depth + 1) b1 = some (l', tl, b2) ∧
      build eqv x policy bucketSize maxDepth fuel r (depth + 1) b3 = some (r', tr, b4) ∧
      t = .node p axis box tl tr) := by
  unfold build at h
  by_cases hc : depth < maxDepth ∧ idx.length > bucketSize
  · rw [if_pos hc] at h
    right
    refine ⟨hc.1, hc.2, policy idx depth box, ?_⟩
    simp only [Option.bind_eq_bind] at h
    obtain ⟨⟨l, p, r⟩, h1, h⟩ := Option.bind_eq_some_iff.1 h
    obtain ⟨b1, h2, h⟩ := Option.bind_eq_some_iff.1 h
    obtain ⟨⟨l', tl, b2⟩, h3, h⟩ := Option.bind_eq_some_iff.1 h
    obtain ⟨seg, h4, h⟩ := Option.bind_eq_some_iff.1 h
    obtain ⟨b3, h5, h⟩ := Option.bind_eq_some_iff.1 h
    obtain ⟨b4, h6, h⟩ := Option.bind_eq_some_iff.1 h
    obtain ⟨⟨r', tr, b5⟩, h7, h⟩ := Option.bind_eq_some_iff.1 h
    obtain ⟨b6, h8, h⟩ := Option.bind_eq_some_iff.1 h
    simp only [Option.some.injEq, Prod.mk.injEq] at h
    exact ⟨l, p, r, l', r', tl, tr, b1, b2, b4, b5, h1, h3, h7, h.2.1.symm⟩
  · rw [if_neg hc] at h
    simp only [Option.some.injEq, Prod.mk.injEq] at h
    exact Or.inl ⟨hc, h.2.1.symm⟩

/-- Shape of the tree, for any tolerance and any axis policy. -/
theorem build_sizes {eqv : K → K → Bool} (hg : GoodEq eqv) {x : Nat → Nat → K}
    {policy : List Nat → Nat → Box K → Nat} {bucketSize maxDepth : Nat} :
    ∀ (fuel depth : Nat) (idx idx' : List Nat) (box box' : Box K) (t : Tree K),
      build eqv x policy bucketSize maxDepth fuel idx depth box = some (idx', t, box') →
      t.indices.Perm idx ∧ t.Sizes (fun n l r => l ≤ (n - 1) / 2 ∧ l + r + 1 = n) ∧
      (idx.Nodup → (∀ axis, ∀ a ∈ idx, ∀ b ∈ idx, a ≠ b → eqv (x a axis) (x b axis) = false) →
        t.Sizes (fun n l r => l = (n - 1) / 2 ∧ r = n / 2)) ∧
      ((∀ axis, ∀ a ∈ idx, ∀ b ∈ idx, eqv (x a axis) (x b axis) = true) →
        t.Sizes (fun n l r => l = 0 ∧ r = n - 1) ∧
        (depth ≤ maxDepth → t.height = min (maxDepth - depth) (idx.length - bucketSize))) := by
  intro fuel
  induction fuel with
  | zero => intro depth idx idx' box box' t h; simp [build] at h
  | succ fuel ih =>
    intro depth idx idx' box box' t h
    rcases build_inv h with ⟨hc, rfl⟩ | ⟨hc1, hc2, axis, l, p, r, l', r', tl, tr, b1, b2, b3, b4, hq,
      hbl, hbr, rfl⟩
    · refine ⟨List.Perm.refl _, trivial, fun _ _ => trivial, fun _ => ⟨trivial, ?_⟩⟩
      intro hd
      show 0 = _
      omega
    · have hne : idx ≠ [] := by intro h; simp [h] at hc2
      obtain ⟨hp, hs1, hs2, hs3⟩ := quickselectMedian_sizes hg hne hq
      obtain ⟨hlp, hl1, hl2, hl3⟩ := ih (depth + 1) l l' b1 b2 tl hbl
      obtain ⟨hrp, hr1, hr2, hr3⟩ := ih (depth + 1) r r' b3 b4 tr hbr
      have hlen : l.length + 1 + r.length = idx.length := by
        have := hp.length_eq; simp at this; omega
      have hperm : (Tree.node p axis box tl tr).indices.Perm idx :=
        (List.Perm.append hlp (hrp.cons p)).trans hp
      have hn := hperm.length_eq
      have hln := hlp.length_eq
      have hrn := hrp.length_eq
      have hml : ∀ a ∈ l, a ∈ idx := fun a ha => hp.mem_iff.1 (by simp [ha])
      have hmr : ∀ a ∈ r, a ∈ idx := fun a ha => hp.mem_iff.1 (by simp [ha])
      refine ⟨hperm, ⟨?_, hl1, hr1⟩, ?_, ?_⟩
      · rw [hn, hln, hrn]
        exact ⟨hs1, by omega⟩
      · intro hnd hdist
        have hnd' := hp.nodup_iff.2 hnd
        have h1 := hs2 hnd (hdist axis)
        refine ⟨?_, hl2 ?_ ?_, hr2 ?_ ?_⟩
        · rw [hn, hln, hrn]
          exact ⟨h1, by omega⟩
        · exact (List.nodup_append.1 hnd').1
        · exact fun axis a ha b hb => hdist axis a (hml a ha) b (hml b hb)
        · exact ((List.nodup_append.1 hnd').2.1.of_cons)
        · exact fun axis a ha b hb => hdist axis a (hmr a ha) b (hmr b hb)
      · intro heq
        have h1 := hs3 (heq axis)
        subst h1
        have h2 := hr3 (fun axis a ha b hb => heq axis a (hmr a ha) b (hmr b hb))
        have h3 := hl3 (fun axis a ha => by simp at ha)
        simp only [List.length_nil] at hln hlen
        refine ⟨⟨?_, h3.1, h2.1⟩, ?_⟩
        · rw [hn, hln, hrn]
          exact ⟨rfl, by omega⟩
        · intro hd
          have h4 := h3.2 (by omega)
          have h5 := h2.2 (by omega)
          show max tl.height tr.height + 1 = _
          simp only [List.length_nil] at h4
          omega

theorem leftTurns_le {t : Tree K} (h : t.Sizes (fun n l r => l ≤ (n - 1) / 2 ∧ l + r + 1 = n)) :
    2 ^ t.leftTurns ≤ t.indices.length + 1 := by
  induction t with
  | leaf idx box => simp [Tree.leftTurns]
  | node p a box l r ihl ihr =>
    obtain ⟨⟨h1, h2⟩, hl, hr⟩ := h
    have h3 := ihl hl
    have h4 := ihr hr
    have h5 : 2 ^ (l.leftTurns + 1) = 2 * 2 ^ l.leftTurns := by rw [Nat.pow_succ]; omega
    show 2 ^ max (l.leftTurns + 1) r.leftTurns ≤ _
    rcases max_choice (l.leftTurns + 1) r.leftTurns with h6 | h6 <;> rw [h6] <;> omega

theorem height_le {t : Tree K} (h : t.Sizes (fun n l r => l = (n - 1) / 2 ∧ r = n / 2)) :
    2 ^ t.height ≤ max 1 (2 * t.indices.length) := by
  induction t with
  | leaf idx box => simp [Tree.height]
  | node p a box l r ihl ihr =>
    obtain ⟨⟨h1, h2⟩, hl, hr⟩ := h
    have h3 := ihl hl
    have h4 := ihr hr
    have h5 : 2 ^ (max l.height r.height + 1) = 2 * 2 ^ max l.height r.height := by
      rw [Nat.pow_succ]; omega
    have h7 : 0 < (Tree.node p a box l r).indices.length := by simp [Tree.indices]
    show 2 ^ (max l.height r.height + 1) ≤ _
    rcases max_choice l.height r.height with h6 | h6 <;> rw [h6] at h5 ⊢ <;> omega

end Verif.KDTree
