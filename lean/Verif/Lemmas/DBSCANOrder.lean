import Verif.Lemmas.DBSCAN
import Mathlib.Order.Nat
import Mathlib.Data.Nat.Find

namespace Verif.DBSCAN

variable {n : Nat} {N : Nat → Nat → Bool} {minSamples : Nat}

/-- What the inner loop visits when it starts with the vector `W` and the visited set `V`. -/
inductive Reach (n : Nat) (N : Nat → Nat → Bool) (minSamples : Nat) (W : List Nat)
    (V : Nat → Bool) : Nat → Prop
  | base {y : Nat} : y ∈ W → V y = false → Reach n N minSamples W V y
  | step {z y : Nat} : Reach n N minSamples W V z → Core n N minSamples z → y < n → N z y = true →
      V y = false → Reach n N minSamples W V y

theorem Reach.unvisited {W : List Nat} {V : Nat → Bool} {y : Nat}
    (h : Reach n N minSamples W V y) : V y = false := by
  cases h <;> assumption

/-- Processing a visited entry. -/
theorem reach_cons_visited {W : List Nat} {V : Nat → Bool} {x y : Nat} (hx : V x = true) :
    Reach n N minSamples (x :: W) V y ↔ Reach n N minSamples W V y := by
  constructor
  · intro h
    induction h with
    | base h1 h2 =>
      rcases List.mem_cons.1 h1 with rfl | h1
      · rw [hx] at h2; cases h2
      · exact .base h1 h2
    | step _ h2 h3 h4 h5 ih => exact .step ih h2 h3 h4 h5
  · intro h
    induction h with
    | base h1 h2 => exact .base (by simp [h1]) h2
    | step _ h2 h3 h4 h5 ih => exact .step ih h2 h3 h4 h5

/-- Processing an unvisited entry. -/
theorem reach_cons_unvisited {W W' : List Nat} {V V' : Nat → Bool} {x y : Nat} (hx : V x = false)
    (hV : ∀ i, V' i = (V i || decide (i = x)))
    (hW : ∀ i, i ∈ W' ↔ i ∈ W ∨ (Core n N minSamples x ∧ i < n ∧ N x i = true ∧ V' i = false)) :
    Reach n N minSamples (x :: W) V y ↔ y = x ∨ Reach n N minSamples W' V' y := by
  have hV1 : ∀ i, V i = false → i ≠ x → V' i = false := by
    intro i h1 h2; rw [hV, h1]; simp [h2]
  have hV2 : ∀ i, V' i = false → V i = false := by
    intro i h1; rw [hV] at h1; simp at h1; exact h1.1
  constructor
  · intro h
    induction h with
    | @base y h1 h2 =>
      by_cases hyx : y = x
      · exact Or.inl hyx
      · right
        rcases List.mem_cons.1 h1 with h1 | h1
        · exact absurd h1 hyx
        · exact .base ((hW y).2 (Or.inl h1)) (hV1 y h2 hyx)
    | @step z y _ h2 h3 h4 h5 ih =>
      by_cases hyx : y = x
      · exact Or.inl hyx
      · right
        rcases ih with rfl | ih
        · exact .base ((hW y).2 (Or.inr ⟨h2, h3, h4, hV1 y h5 hyx⟩)) (hV1 y h5 hyx)
        · exact .step ih h2 h3 h4 (hV1 y h5 hyx)
  · rintro (rfl | h)
    · exact .base (by simp) hx
    · induction h with
      | @base y h1 h2 =>
        rcases (hW y).1 h1 with h1 | ⟨h1, h3, h4, _⟩
        · exact .base (by simp [h1]) (hV2 y h2)
        · exact .step (.base (by simp) hx) h1 h3 h4 (hV2 y h2)
      | @step z y _ h2 h3 h4 h5 ih => exact .step ih h2 h3 h4 (hV2 y h5)

/-- The result of the inner loop depends on the order of the neighbours in no way. -/
theorem inner_char {query : Nat → Option (List Nat)} (hq : QueryOk n N query) {label : Nat}
    (hlab : label ≠ 0) :
    ∀ (fuel : Nat) (W : List Nat) (s s' : St), s.Len n → (∀ y ∈ W, y < n) →
      inner query minSamples label fuel W s = some s' →
      s'.Len n ∧
      (∀ y, s'.vis y = true ↔ s.vis y = true ∨ Reach n N minSamples W s.vis y) ∧
      (∀ y, s.prd y = 0 → (y ∈ W ∨ Reach n N minSamples W s.vis y) → s'.prd y = label) ∧
      (∀ y, ¬ (s.prd y = 0 ∧ (y ∈ W ∨ Reach n N minSamples W s.vis y)) → s'.prd y = s.prd y) := by
  intro fuel
  induction fuel with
  | zero => intro W s s' _ _ h; simp [inner] at h
  | succ fuel ih =>
    intro W s s' hl hWn h
    cases W with
    | nil =>
      simp only [inner, Option.some.injEq] at h
      subst h
      have hno : ∀ y, ¬ Reach n N minSamples [] s.vis y := by
        intro y hy
        induction hy with
        | base h1 _ => simp at h1
        | step _ _ _ _ _ ih => exact ih
      refine ⟨hl, fun y => ?_, fun y _ h => ?_, fun y _ => rfl⟩
      · simp [hno y]
      · rcases h with h | h
        · simp at h
        · exact absurd h (hno y)
    | cons x rest =>
      have hxn : x < n := hWn x (by simp)
      have hv := getElem?_getD (l := s.visited) (i := x) (by rw [hl.1]; exact hxn) false
      have hp := getElem?_getD (l := s.pred) (i := x) (by rw [hl.2]; exact hxn) 0
      have hpred : ∀ y, (if s.pred.getD x 0 = 0 then s.pred.set x label else s.pred).getD y 0 =
          if y = x ∧ s.prd x = 0 then label else s.prd y := by
        intro y
        by_cases h0 : s.pred.getD x 0 = 0
        · have h0' : s.prd x = 0 := h0
          rw [if_pos h0, getD_set _ _ _ _ _ (by rw [hl.2]; exact hxn)]
          by_cases hyx : y = x
          · rw [if_pos hyx, if_pos ⟨hyx, h0'⟩]
          · rw [if_neg hyx, if_neg (fun h => hyx h.1)]; rfl
        · have h0' : ¬ s.prd x = 0 := h0
          rw [if_neg h0]
          rw [if_neg (fun h => h0' h.2)]; rfl
      have hpl : (if s.pred.getD x 0 = 0 then s.pred.set x label else s.pred).length = n := by
        split
        · rw [List.length_set]; exact hl.2
        · exact hl.2
      simp only [inner, hv, hp, Option.bind_eq_bind, Option.bind_some] at h
      generalize (if s.pred.getD x 0 = 0 then s.pred.set x label else s.pred) = P at h hpred hpl
      cases hvx : s.visited.getD x false with
      | true =>
        simp only [hvx, if_true, Option.bind_some] at h
        obtain ⟨h1, h2, h3, h4⟩ := ih rest ⟨s.visited, P⟩ s' ⟨hl.1, hpl⟩ (fun y hy => hWn y (by simp [hy])) h
        have hvis : s.vis x = true := hvx
        have hR : ∀ y, Reach n N minSamples (x :: rest) s.vis y ↔
            Reach n N minSamples rest s.vis y := fun y => reach_cons_visited hvis
        refine ⟨h1, fun y => ?_, fun y hy0 hy => ?_, fun y hy => ?_⟩
        · rw [hR]; exact h2 y
        · rw [hR] at hy
          by_cases hyx : y = x
          · subst hyx
            rw [h4 y (by rintro ⟨h5, _⟩; simp only [St.prd] at h5; rw [hpred] at h5; simp [hy0] at h5; exact hlab h5)]
            simp only [St.prd]; rw [hpred]; simp [hy0]
          · refine h3 y ?_ ?_
            · simp only [St.prd]; rw [hpred]; simp [hyx, hy0]
            · rcases hy with hy | hy
              · rcases List.mem_cons.1 hy with hy | hy
                · exact absurd hy hyx
                · exact Or.inl hy
              · exact Or.inr hy
        · rw [hR] at hy
          have hyx : ¬ (y = x ∧ s.prd x = 0) := by
            rintro ⟨rfl, h0⟩; exact hy ⟨h0, Or.inl (by simp)⟩
          rw [h4 y ?_]
          · simp only [St.prd]; rw [hpred, if_neg hyx]; rfl
          · rintro ⟨h5, h6⟩
            simp only [St.prd] at h5
            rw [hpred, if_neg hyx] at h5
            refine hy ⟨h5, ?_⟩
            rcases h6 with h6 | h6
            · exact Or.inl (by simp [h6])
            · exact Or.inr h6
      | false =>
        obtain ⟨nb, eq, hmem, _, hcore⟩ := hq.spec (minSamples := minSamples) hxn
        have hvis : s.vis x = false := hvx
        have hvis' : ∀ y, (s.visited.set x true).getD y false = (s.vis y || decide (y = x)) := by
          intro y
          rw [getD_set _ _ _ _ _ (by rw [hl.1]; exact hxn)]
          by_cases hyx : y = x <;> simp [hyx, St.vis]
        simp only [hvx, Bool.false_eq_true, if_false, eq, Option.bind_some] at h
        -- the two cases of the condition give the same shape
        have key : ∃ rest', (∀ i, i ∈ rest' ↔ i ∈ rest ∨ (Core n N minSamples x ∧ i < n ∧
              N x i = true ∧ (s.visited.set x true).getD i false = false)) ∧
            inner query minSamples label fuel rest' ⟨s.visited.set x true, P⟩ = some s' := by
          by_cases hc : nb.length > minSamples
          · have hc' := hcore.1 hc
            rw [if_pos hc, filterUnvisited_spec nb (by
              intro y hy; rw [List.length_set, hl.1]; exact ((hmem y).1 hy).1)] at h
            simp only [Option.bind_some] at h
            refine ⟨_, ?_, h⟩
            intro i
            rw [List.mem_append, List.mem_filter, hmem]
            simp only [Bool.not_eq_true', hc', true_and]
            tauto
          · have hc' : ¬ Core n N minSamples x := fun h => hc (hcore.2 h)
            rw [if_neg hc] at h
            exact ⟨rest, fun i => by simp [hc'], h⟩
        clear h
        obtain ⟨rest', hW, h⟩ := key
        have hWn' : ∀ y ∈ rest', y < n := by
          intro y hy
          rcases (hW y).1 hy with hy | ⟨_, hy, _⟩
          · exact hWn y (by simp [hy])
          · exact hy
        obtain ⟨h1, h2, h3, h4⟩ := ih rest' ⟨s.visited.set x true, P⟩ s' ⟨by simp [hl.1], hpl⟩ hWn' h
        have hR : ∀ y, Reach n N minSamples (x :: rest) s.vis y ↔
            y = x ∨ Reach n N minSamples rest'
              (St.vis ⟨s.visited.set x true, P⟩) y := fun y =>
          reach_cons_unvisited hvis hvis' hW
        have hin : ∀ y, y ≠ x → ((y ∈ rest' ∨ Reach n N minSamples rest'
              (St.vis ⟨s.visited.set x true, P⟩) y) ↔
            (y ∈ x :: rest ∨ Reach n N minSamples (x :: rest) s.vis y)) := by
          intro y hyx
          rw [hR]
          constructor
          · rintro (h | h)
            · rcases (hW y).1 h with h | ⟨_, _, _, h6⟩
              · exact Or.inl (by simp [h])
              · exact Or.inr (Or.inr (.base h h6))
            · exact Or.inr (Or.inr h)
          · rintro (h | h | h)
            · rcases List.mem_cons.1 h with h | h
              · exact absurd h hyx
              · exact Or.inl ((hW y).2 (Or.inl h))
            · exact absurd h hyx
            · exact Or.inr h
        refine ⟨h1, fun y => ?_, fun y hy0 hy => ?_, fun y hy => ?_⟩
        · rw [h2, hR]
          simp only [St.vis]
          rw [hvis']
          simp only [St.vis, Bool.or_eq_true, decide_eq_true_eq]
          tauto
        · by_cases hyx : y = x
          · subst hyx
            rw [h4 y (by rintro ⟨h5, _⟩; simp only [St.prd] at h5; rw [hpred] at h5; simp [hy0] at h5; exact hlab h5)]
            simp only [St.prd]; rw [hpred]; simp [hy0]
          · refine h3 y ?_ ((hin y hyx).2 hy)
            simp only [St.prd]; rw [hpred]; simp [hyx, hy0]
        · have hyx : ¬ (y = x ∧ s.prd x = 0) := by
            rintro ⟨rfl, h0⟩; exact hy ⟨h0, Or.inl (by simp)⟩
          rw [h4 y ?_]
          · simp only [St.prd]; rw [hpred, if_neg hyx]; rfl
          · rintro ⟨h5, h6⟩
            simp only [St.prd] at h5
            rw [hpred, if_neg hyx] at h5
            by_cases hyx' : y = x
            · exact hyx ⟨hyx', by rw [← hyx']; exact h5⟩
            · exact hy ⟨h5, (hin y hyx').1 h6⟩

/-- A core sample taken by a cluster belongs to that cluster. -/
theorem Takes.connected {m i : Nat} (h : Takes n N minSamples m i) (hi : Core n N minSamples i) :
    DensityConnected n N minSamples m i := by
  obtain ⟨hf, _, rfl | h | ⟨_, k, h1, h2⟩⟩ := h
  · exact ⟨hi, hi, .refl⟩
  · exact .edge hf.1 hi h
  · exact h1.trans (.edge h1.2.1 hi h2)

/-- Every core sample belongs to a cluster with a first core sample, which takes it. -/
theorem exists_first (hN : ∀ i j, N i j = N j i) {i : Nat} (hi : Core n N minSamples i) :
    ∃ m, m ≤ i ∧ DensityConnected n N minSamples m i ∧ Takes n N minSamples m i := by
  classical
  have hex : ∃ j, DensityConnected n N minSamples i j := ⟨i, hi, hi, .refl⟩
  have hm := Nat.find_spec hex
  have hmin : ∀ j, DensityConnected n N minSamples i j → Nat.find hex ≤ j :=
    fun j hj => Nat.find_min' hex hj
  generalize Nat.find hex = m at hm hmin
  have hmi := hm.symm hN
  have hle : m ≤ i := hmin i ⟨hi, hi, .refl⟩
  refine ⟨m, hle, hmi, ⟨hm.2.1, fun j hj => hmin j (hm.trans hj)⟩, hi.1, ?_⟩
  rcases Nat.eq_or_lt_of_le hle with rfl | hlt
  · exact Or.inl rfl
  · right; right
    refine ⟨hlt, ?_⟩
    rcases Relation.ReflTransGen.cases_tail hmi.2.2 with h | ⟨k, h1, h2⟩
    · omega
    · exact ⟨k, ⟨hmi.1, h2.1, h1⟩, h2.2.2⟩

/-- A first core sample is taken by no earlier cluster. -/
theorem First.not_taken (hN : ∀ i j, N i j = N j i) {m e k : Nat} (he : First n N minSamples e)
    (hk : DensityConnected n N minSamples e k) (hm : m < e) : ¬ Takes n N minSamples m k := by
  intro h
  have h1 := he.2 m (hk.trans ((h.connected hk.2.1).symm hN))
  omega

open Classical in
theorem clustersBelow_succ (e : Nat) : clustersBelow n N minSamples (e + 1) =
    clustersBelow n N minSamples e + if First n N minSamples e then 1 else 0 := by
  unfold clustersBelow
  rw [List.range_succ, List.filter_append, List.length_append]
  congr 1
  by_cases h : First n N minSamples e <;> simp [h]

/-- State of the outer loop before entry point `e`. -/
structure LInv (n : Nat) (N : Nat → Nat → Bool) (minSamples e c : Nat) (vis : Nat → Bool)
    (prd : Nat → Nat) : Prop where
  label : c = clustersBelow n N minSamples e
  vis : ∀ y, vis y = true ↔ y < n ∧ (y < e ∨ ∃ m, m < e ∧ Takes n N minSamples m y)
  zero : ∀ y, (∀ m, m < e → ¬ Takes n N minSamples m y) → prd y = 0
  least : ∀ y m, m < e → Takes n N minSamples m y →
    (∀ m', m' < e → Takes n N minSamples m' y → m ≤ m') →
    prd y = clustersBelow n N minSamples m + 1

theorem LInv.zero_iff {e c : Nat} {vis : Nat → Bool} {prd : Nat → Nat}
    (h : LInv n N minSamples e c vis prd) (y : Nat) :
    prd y = 0 ↔ ∀ m, m < e → ¬ Takes n N minSamples m y := by
  classical
  refine ⟨fun h0 m hm ht => ?_, h.zero y⟩
  have hex : ∃ m, m < e ∧ Takes n N minSamples m y := ⟨m, hm, ht⟩
  have := h.least y _ (Nat.find_spec hex).1 (Nat.find_spec hex).2
    (fun m' h1 h2 => Nat.find_min' hex ⟨h1, h2⟩)
  omega

/-- The entry point starts no cluster: nothing changes but its mark. -/
theorem LInv.skip {e c : Nat} {vis vis' : Nat → Bool} {prd prd' : Nat → Nat} (hen : e < n)
    (h : LInv n N minSamples e c vis prd) (hf : ¬ First n N minSamples e)
    (hv : ∀ y, vis' y = (vis y || decide (y = e))) (hp : ∀ y, prd' y = prd y) :
    LInv n N minSamples (e + 1) c vis' prd' := by
  have hlt : ∀ m y, m < e + 1 → Takes n N minSamples m y → m < e := by
    intro m y hm ht
    rcases Nat.lt_succ_iff_lt_or_eq.1 hm with h | rfl
    · exact h
    · exact absurd ht.1 hf
  refine ⟨?_, fun y => ?_, fun y hy => ?_, fun y m hm ht hmin => ?_⟩
  · rw [clustersBelow_succ, if_neg hf, h.label]; rfl
  · rw [hv, Bool.or_eq_true, h.vis, decide_eq_true_eq]
    constructor
    · rintro (⟨h1, h2 | ⟨m, h2, h3⟩⟩ | rfl)
      · exact ⟨h1, Or.inl (by omega)⟩
      · exact ⟨h1, Or.inr ⟨m, by omega, h3⟩⟩
      · exact ⟨hen, Or.inl (by omega)⟩
    · rintro ⟨h1, h2 | ⟨m, h2, h3⟩⟩
      · by_cases hye : y = e
        · exact Or.inr hye
        · exact Or.inl ⟨h1, Or.inl (by omega)⟩
      · exact Or.inl ⟨h1, Or.inr ⟨m, hlt m y h2 h3, h3⟩⟩
  · rw [hp]; exact h.zero y (fun m hm => hy m (by omega))
  · rw [hp]
    exact h.least y m (hlt m y hm ht) ht (fun m' h1 h2 => hmin m' (by omega) h2)

/-- The entry point starts a cluster. -/
theorem LInv.cluster (hN : ∀ i j, N i j = N j i) {e c : Nat} {nb : List Nat}
    {vis vis1 vis' : Nat → Bool} {prd prd1 prd' : Nat → Nat} (hen : e < n)
    (h : LInv n N minSamples e c vis prd) (hc : Core n N minSamples e) (hve : vis e = false)
    (hnb : ∀ j, j ∈ nb ↔ j < n ∧ N e j = true)
    (hv1 : ∀ y, vis1 y = (vis y || decide (y = e)))
    (hp1 : ∀ y, prd1 y = if y = e then c + 1 else prd y)
    (hv : ∀ y, vis' y = true ↔ vis1 y = true ∨ Reach n N minSamples nb vis1 y)
    (hpa : ∀ y, prd1 y = 0 → (y ∈ nb ∨ Reach n N minSamples nb vis1 y) → prd' y = c + 1)
    (hpb : ∀ y, ¬ (prd1 y = 0 ∧ (y ∈ nb ∨ Reach n N minSamples nb vis1 y)) → prd' y = prd1 y) :
    LInv n N minSamples (e + 1) (c + 1) vis' prd' := by
  have hnt : ∀ m, m < e → ¬ Takes n N minSamples m e := by
    intro m hm ht
    have : vis e = true := (h.vis e).2 ⟨hen, Or.inr ⟨m, hm, ht⟩⟩
    rw [hve] at this; cases this
  have hf : First n N minSamples e := by
    obtain ⟨m, hm, hme, ht⟩ := exists_first hN hc
    rcases Nat.eq_or_lt_of_le hm with rfl | hlt
    · exact ht.1
    · exact absurd ht (hnt m hlt)
  -- the core samples of the cluster were not visited before
  have hnew : ∀ k, DensityConnected n N minSamples e k → vis k = false := by
    intro k hk
    rw [← Bool.not_eq_true, h.vis]
    rintro ⟨_, h1 | ⟨m, h1, h2⟩⟩
    · have := hf.2 k hk; omega
    · exact hf.not_taken hN hk h1 h2
  have hvis1 : ∀ y, vis1 y = false ↔ vis y = false ∧ y ≠ e := by
    intro y; rw [hv1]; simp
  -- all of them are reached
  have hreach : ∀ k, DensityConnected n N minSamples e k →
      k = e ∨ Reach n N minSamples nb vis1 k := by
    intro k hk
    have h2 := hk.2.2
    induction h2 with
    | refl => exact Or.inl rfl
    | @tail a b h1 h2 ih =>
      by_cases hbe : b = e
      · exact Or.inl hbe
      · right
        have hb := (hvis1 b).2 ⟨hnew b hk, hbe⟩
        rcases ih ⟨hk.1, h2.1, h1⟩ with rfl | ih
        · exact .base ((hnb b).2 ⟨h2.2.1.1, h2.2.2⟩) hb
        · exact .step ih h2.1 h2.2.1.1 h2.2.2 hb
  -- what is reached is taken by the cluster
  have hreach' : ∀ y, Reach n N minSamples nb vis1 y → y < n ∧ e < y ∧
      ∃ k, DensityConnected n N minSamples e k ∧ N k y = true := by
    intro y hy
    have hgt : ∀ y, y < n → Reach n N minSamples nb vis1 y → e < y := by
      intro y hyn hy
      obtain ⟨h1, h2⟩ := (hvis1 y).1 hy.unvisited
      by_contra hlt
      have : vis y = true := (h.vis y).2 ⟨hyn, Or.inl (by omega)⟩
      rw [h1] at this; cases this
    induction hy with
    | @base y h1 h2 =>
      have h3 := (hnb y).1 h1
      exact ⟨h3.1, hgt y h3.1 (.base h1 h2), e, ⟨hc, hc, .refl⟩, h3.2⟩
    | @step z y h1 h2 h3 h4 h5 ih =>
      obtain ⟨_, _, k, h6, h7⟩ := ih
      exact ⟨h3, hgt y h3 (.step h1 h2 h3 h4 h5), z, h6.trans (.edge h6.2.1 h2 h7), h4⟩
  have htake : ∀ y, y = e ∨ y ∈ nb ∨ Reach n N minSamples nb vis1 y → Takes n N minSamples e y := by
    rintro y (rfl | h1 | h1)
    · exact ⟨hf, hen, Or.inl rfl⟩
    · exact ⟨hf, ((hnb y).1 h1).1, Or.inr (Or.inl ((hnb y).1 h1).2)⟩
    · obtain ⟨h2, h3, h4⟩ := hreach' y h1
      exact ⟨hf, h2, Or.inr (Or.inr ⟨h3, h4⟩)⟩
  have htake' : ∀ y, Takes n N minSamples e y → y = e ∨ y ∈ nb ∨ (e < y ∧ vis y = true) ∨
      Reach n N minSamples nb vis1 y := by
    rintro y ⟨_, h1, h2 | h2 | ⟨h2, k, h3, h4⟩⟩
    · exact Or.inl h2
    · exact Or.inr (Or.inl ((hnb y).2 ⟨h1, h2⟩))
    · right; right
      cases hvy : vis y with
      | true => exact Or.inl ⟨h2, rfl⟩
      | false =>
        right
        have hy := (hvis1 y).2 ⟨hvy, by omega⟩
        rcases hreach k h3 with rfl | h5
        · exact .base ((hnb y).2 ⟨h1, h4⟩) hy
        · exact .step h5 h3.2.1 h1 h4 hy
  have hsucc : ∀ m y, m < e + 1 → Takes n N minSamples m y →
      (m < e ∧ Takes n N minSamples m y) ∨ m = e := by
    intro m y hm ht
    rcases Nat.lt_succ_iff_lt_or_eq.1 hm with h | h
    · exact Or.inl ⟨h, ht⟩
    · exact Or.inr h
  -- labels of samples that no earlier cluster takes
  have hnewlab : ∀ y, (∀ m, m < e → ¬ Takes n N minSamples m y) →
      (Takes n N minSamples e y → prd' y = c + 1) ∧
      (¬ Takes n N minSamples e y → prd' y = 0) := by
    intro y hy
    have h0 := h.zero y hy
    constructor
    · intro ht
      by_cases hye : y = e
      · rw [hpb y, hp1, if_pos hye]
        rintro ⟨h1, _⟩
        rw [hp1, if_pos hye] at h1; omega
      · refine hpa y (by rw [hp1, if_neg hye]; exact h0) ?_
        rcases htake' y ht with h1 | h1 | ⟨h1, h2⟩ | h1
        · exact absurd h1 hye
        · exact Or.inl h1
        · obtain ⟨_, h3 | ⟨m, h3, h4⟩⟩ := (h.vis y).1 h2
          · omega
          · exact absurd h4 (hy m h3)
        · exact Or.inr h1
    · intro ht
      have hye : y ≠ e := fun h => ht (htake y (Or.inl h))
      rw [hpb y, hp1, if_neg hye, h0]
      rintro ⟨_, h1⟩
      exact ht (htake y (Or.inr h1))
  -- labels of the others
  have hold : ∀ y m, m < e → Takes n N minSamples m y → prd' y = prd y := by
    intro y m hm ht
    have hye : y ≠ e := by rintro rfl; exact hnt m hm ht
    have h0 : prd y ≠ 0 := fun h0 => (h.zero_iff y).1 h0 m hm ht
    rw [hpb y, hp1, if_neg hye]
    rintro ⟨h1, _⟩
    rw [hp1, if_neg hye] at h1
    exact h0 h1
  refine ⟨?_, fun y => ?_, fun y hy => ?_, fun y m hm ht hmin => ?_⟩
  · rw [clustersBelow_succ, if_pos hf, h.label]
  · rw [hv, hv1, Bool.or_eq_true, h.vis, decide_eq_true_eq]
    constructor
    · rintro ((⟨h1, h2 | ⟨m, h2, h3⟩⟩ | rfl) | h1)
      · exact ⟨h1, Or.inl (by omega)⟩
      · exact ⟨h1, Or.inr ⟨m, by omega, h3⟩⟩
      · exact ⟨hen, Or.inl (by omega)⟩
      · have := htake y (Or.inr (Or.inr h1))
        exact ⟨this.2.1, Or.inr ⟨e, by omega, this⟩⟩
    · rintro ⟨h1, h2 | ⟨m, h2, h3⟩⟩
      · left
        by_cases hye : y = e
        · exact Or.inr hye
        · exact Or.inl ⟨h1, Or.inl (by omega)⟩
      · rcases hsucc m y h2 h3 with ⟨h4, h5⟩ | rfl
        · exact Or.inl (Or.inl ⟨h1, Or.inr ⟨m, h4, h5⟩⟩)
        · rcases htake' y h3 with h4 | h4 | ⟨_, h4⟩ | h4
          · exact Or.inl (Or.inr h4)
          · by_cases hye : y = m
            · exact Or.inl (Or.inr hye)
            · cases hvy : vis y with
              | true => exact Or.inl (Or.inl ((h.vis y).1 hvy))
              | false => exact Or.inr (.base h4 ((hvis1 y).2 ⟨hvy, hye⟩))
          · exact Or.inl (Or.inl ((h.vis y).1 h4))
          · exact Or.inr h4
  · exact (hnewlab y (fun m hm => hy m (by omega))).2 (hy e (by omega))
  · rcases hsucc m y hm ht with ⟨h1, _⟩ | rfl
    · rw [hold y m h1 ht]
      exact h.least y m h1 ht (fun m' h2 h3 => hmin m' (by omega) h3)
    · rw [(hnewlab y (fun m' hm' ht' => by have := hmin m' (by omega) ht'; omega)).1 ht, h.label]

theorem outer_label (hN : ∀ i j, N i j = N j i) {query : Nat → Option (List Nat)}
    (hq : QueryOk n N query) {e c c' : Nat} (he : e < n) (s s' : St) (hl : s.Len n)
    (h : LInv n N minSamples e c s.vis s.prd)
    (hs : outerStep query minSamples n (s, c) e = some (s', c')) :
    s'.Len n ∧ LInv n N minSamples (e + 1) c' s'.vis s'.prd := by
  have hv := getElem?_getD (l := s.visited) (i := e) (by rw [hl.1]; exact he) false
  have hlp : e < s.pred.length := by rw [hl.2]; exact he
  have hnt : s.vis e = false → ∀ m, m < e → ¬ Takes n N minSamples m e := by
    intro hve m hm ht
    have : s.vis e = true := (h.vis e).2 ⟨he, Or.inr ⟨m, hm, ht⟩⟩
    rw [hve] at this; cases this
  simp only [outerStep, hv, Option.bind_eq_bind, Option.bind_some] at hs
  cases hve : s.visited.getD e false with
  | true =>
    simp only [hve, if_true, Option.some.injEq, Prod.mk.injEq] at hs
    obtain ⟨rfl, rfl⟩ := hs
    refine ⟨hl, h.skip he ?_ (fun y => ?_) (fun y => rfl)⟩
    · intro hf
      obtain ⟨_, h1 | ⟨m, h1, h2⟩⟩ := (h.vis e).1 hve
      · omega
      · exact hf.not_taken hN ⟨hf.1, hf.1, .refl⟩ h1 h2
    · by_cases hye : y = e
      · subst hye
        have : s.vis y = true := hve
        simp [this]
      · simp [hye]
  | false =>
    obtain ⟨nb, enb, hnb, hnbl, hcore⟩ := hq.spec (minSamples := minSamples) he
    have hvis' : ∀ (p : List Nat) (i : Nat), (St.mk (s.visited.set e true) p).vis i =
        (s.vis i || decide (i = e)) := by
      intro p i
      unfold St.vis
      dsimp only
      rw [getD_set _ _ _ _ _ (by rw [hl.1]; exact he)]
      by_cases hix : i = e <;> simp [hix]
    have hprd' : ∀ (v : List Bool) (l i : Nat), (St.mk v (s.pred.set e l)).prd i =
        if i = e then l else s.prd i := by
      intro v l i
      unfold St.prd
      exact getD_set _ _ _ _ _ hlp
    simp only [hve, enb, hlp, Option.bind_some, if_true, if_false, Bool.false_eq_true] at hs
    by_cases hgt : nb.length > minSamples
    · rw [if_pos hgt] at hs
      simp only [Option.bind_eq_some_iff] at hs
      obtain ⟨s1, hin, hs⟩ := hs
      simp only [Option.some.injEq, Prod.mk.injEq] at hs
      obtain ⟨rfl, rfl⟩ := hs
      obtain ⟨h1, h2, h3, h4⟩ := inner_char hq (Nat.succ_ne_zero c) _ nb
        ⟨s.visited.set e true, s.pred.set e (c + 1)⟩ s1
        ⟨by rw [List.length_set]; exact hl.1, by rw [List.length_set]; exact hl.2⟩
        (fun y hy => ((hnb y).1 hy).1) hin
      exact ⟨h1, h.cluster hN he (hcore.1 hgt) hve hnb (hvis' _) (hprd' _ _) h2 h3 h4⟩
    · rw [if_neg hgt] at hs
      simp only [Option.some.injEq, Prod.mk.injEq] at hs
      obtain ⟨rfl, rfl⟩ := hs
      refine ⟨⟨by rw [List.length_set]; exact hl.1, by rw [List.length_set]; exact hl.2⟩,
        h.skip he (fun hf => hgt (hcore.2 hf.1)) (hvis' _) (fun y => ?_)⟩
      rw [hprd']
      by_cases hye : y = e
      · rw [if_pos hye, hye, h.zero e (hnt hve)]
      · rw [if_neg hye]

/-- The labels are exactly the specified ones. -/
theorem predict_label (hN : ∀ i j, N i j = N j i) {query : Nat → Option (List Nat)}
    (hq : QueryOk n N query) : ∃ label, predict query minSamples n = some label ∧
      label.length = n ∧ ∀ i, i < n → IsLabel n N minSamples i (label.getD i 0) := by
  obtain ⟨s0, c0, e0, _, _⟩ := predict_spec (minSamples := minSamples) hN hq
  have key : ∀ k, k ≤ n → ∀ s c, (List.range k).foldlM (outerStep query minSamples n)
      ({ visited := List.replicate n false, pred := List.replicate n 0 }, 0) = some (s, c) →
      s.Len n ∧ LInv n N minSamples k c s.vis s.prd := by
    intro k
    induction k with
    | zero =>
      intro _ s c h
      simp only [List.range_zero, List.foldlM_nil, Option.pure_def, Option.some.injEq,
        Prod.mk.injEq] at h
      obtain ⟨rfl, rfl⟩ := h
      have hp : ∀ i, (St.mk (List.replicate n false) (List.replicate n 0)).prd i = 0 := by
        intro i; simp [St.prd, List.getElem?_replicate]; split <;> rfl
      have hv : ∀ i, (St.mk (List.replicate n false) (List.replicate n 0)).vis i = false := by
        intro i; simp [St.vis, List.getElem?_replicate]; split <;> rfl
      refine ⟨⟨by simp, by simp⟩, by simp [clustersBelow], fun y => ?_, fun y _ => hp y,
        fun y m hm => by omega⟩
      rw [hv]; simp
    | succ k ih =>
      intro hk s c h
      rw [List.range_succ, List.foldlM_append] at h
      simp only [Option.bind_eq_bind, Option.bind_eq_some_iff] at h
      obtain ⟨⟨s1, c1⟩, h1, h2⟩ := h
      simp only [List.foldlM_cons, List.foldlM_nil, Option.bind_eq_bind, Option.pure_def,
        Option.bind_some, Option.bind_fun_some] at h2
      obtain ⟨hl, hi⟩ := ih (by omega) s1 c1 h1
      exact outer_label hN hq (by omega) s1 s hl hi h2
  unfold predict at e0
  simp only [Option.bind_eq_bind, Option.bind_eq_some_iff] at e0
  obtain ⟨⟨s, c⟩, h1, h2⟩ := e0
  obtain ⟨hl, h⟩ := key n (Nat.le_refl _) s c h1
  refine ⟨s.pred, by simp [predict, h1], hl.2, fun i hi => ?_⟩
  classical
  have hlt : ∀ m, Takes n N minSamples m i → m < n := fun m hm => hm.1.1.1
  by_cases hex : ∃ m, Takes n N minSamples m i
  · right
    refine ⟨Nat.find hex, Nat.find_spec hex, fun m' hm' => Nat.find_min' hex hm', ?_⟩
    exact h.least i _ (hlt _ (Nat.find_spec hex)) (Nat.find_spec hex)
      (fun m' _ hm' => Nat.find_min' hex hm')
  · left
    exact ⟨h.zero i (fun m _ hm => hex ⟨m, hm⟩), fun m hm => hex ⟨m, hm⟩⟩

theorem IsLabel.unique {i l l' : Nat} (h : IsLabel n N minSamples i l)
    (h' : IsLabel n N minSamples i l') : l = l' := by
  rcases h with ⟨h1, h2⟩ | ⟨m, h1, h2, h3⟩ <;> rcases h' with ⟨h1', h2'⟩ | ⟨m', h1', h2', h3'⟩
  · omega
  · exact absurd h1' (h2 m')
  · exact absurd h1 (h2' m)
  · have : m = m' := Nat.le_antisymm (h2 m' h1') (h2' m h1)
    rw [h3, h3', this]

end Verif.DBSCAN
