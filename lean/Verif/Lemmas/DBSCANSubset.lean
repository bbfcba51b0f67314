import Verif.Lemmas.DBSCANOrder
import Mathlib.Data.List.Sort

/-
Lemmas for DBSCAN on a tree that holds only part of the samples.
-/

namespace Verif.DBSCAN

variable {n : Nat} {N : Nat → Nat → Bool} {minSamples : Nat}

/-! ### the loops are defined for neighbour relations that are not symmetric -/

theorem inner_some {query : Nat → Option (List Nat)} (hq : QueryOk n N query) {c : Nat} :
    ∀ (fuel : Nat) (rest : List Nat) (s : St), s.Len n →
      rest.length + n * unvisited s.visited < fuel → (∀ y ∈ rest, y < n) →
      ∃ s', inner query minSamples c fuel rest s = some s' := by
  intro fuel
  induction fuel with
  | zero => intro rest s _ h; omega
  | succ fuel ih =>
    intro rest s hl hf hr
    cases rest with
    | nil => exact ⟨s, rfl⟩
    | cons x rest =>
      have hxn : x < n := hr x (by simp)
      have hr' : ∀ y ∈ rest, y < n := fun y hy => hr y (by simp [hy])
      have hv := getElem?_getD (l := s.visited) (i := x) (by rw [hl.1]; exact hxn) false
      have hp := getElem?_getD (l := s.pred) (i := x) (by rw [hl.2]; exact hxn) 0
      have hlen' : (if s.pred.getD x 0 = 0 then s.pred.set x c else s.pred).length = n := by
        split
        · rw [List.length_set]; exact hl.2
        · exact hl.2
      simp only [List.length_cons] at hf
      cases hvx : s.visited.getD x false with
      | true =>
        simp only [inner, hv, hp, hvx, Option.bind_eq_bind, Option.bind_some, if_true]
        exact ih _ _ ⟨hl.1, hlen'⟩ (by dsimp only; omega) hr'
      | false =>
        obtain ⟨nb, enb, hnb, hnbl, _⟩ := hq.spec (minSamples := minSamples) hxn
        have hun := unvisited_set (by rw [hl.1]; exact hxn) hvx
        have hmeas : n * unvisited (s.visited.set x true) + n = n * unvisited s.visited := by
          rw [← hun, Nat.mul_add, Nat.mul_one]
        simp only [inner, hv, hp, hvx, enb, Option.bind_eq_bind, Option.bind_some,
          Bool.false_eq_true, if_false]
        by_cases hgt : nb.length > minSamples
        · have hfil := filterUnvisited_spec (visited := s.visited.set x true) nb
            (fun y hy => by rw [List.length_set, hl.1]; exact ((hnb y).1 hy).1)
          simp only [hgt, if_true, hfil, Option.bind_some]
          refine ih _ _ ⟨by rw [List.length_set]; exact hl.1, hlen'⟩ ?_ ?_
          · have : (nb.filter (fun y => !((s.visited.set x true).getD y false))).length ≤ nb.length :=
              List.length_filter_le _ _
            simp only [List.length_append]
            omega
          · intro y hy
            rcases List.mem_append.1 hy with hy | hy
            · exact hr' y hy
            · exact ((hnb y).1 (List.mem_filter.1 hy).1).1
        · simp only [hgt, if_false, Option.bind_some]
          exact ih _ _ ⟨by rw [List.length_set]; exact hl.1, hlen'⟩ (by dsimp only; omega) hr'

theorem Reach.target {W : List Nat} {V : Nat → Bool} {y : Nat} (h : Reach n N minSamples W V y) :
    y ∈ W ∨ ∃ z, N z y = true := by
  cases h with
  | base h1 _ => exact Or.inl h1
  | step _ _ _ h4 _ => exact Or.inr ⟨_, h4⟩

/-- Invariant of the outer loop for samples that nothing points at (`Out`): they are visited by the
outer loop only, and those before the entry point are labelled if and only if they are core, each
with a label of its own. -/
structure OutInv (n : Nat) (N : Nat → Nat → Bool) (minSamples : Nat) (Out : Nat → Prop)
    (e c : Nat) (vis : Nat → Bool) (prd : Nat → Nat) : Prop where
  unseen : ∀ i, Out i → e ≤ i → vis i = false ∧ prd i = 0
  bound : ∀ i, prd i ≤ c
  core : ∀ i, Out i → i < e → (prd i ≠ 0 ↔ Core n N minSamples i)
  own : ∀ i j, Out i → Out j → i < e → j < e → i ≠ j → Core n N minSamples i → prd i ≠ prd j

theorem outer_out {Out : Nat → Prop} (hout : ∀ i j, Out j → N i j = false)
    {query : Nat → Option (List Nat)} (hq : QueryOk n N query) {e c : Nat} (he : e < n) (s : St)
    (hl : s.Len n) (h : OutInv n N minSamples Out e c s.vis s.prd) :
    ∃ s' c', outerStep query minSamples n (s, c) e = some (s', c') ∧ s'.Len n ∧
      OutInv n N minSamples Out (e + 1) c' s'.vis s'.prd := by
  have hv := getElem?_getD (l := s.visited) (i := e) (by rw [hl.1]; exact he) false
  cases hve : s.visited.getD e false with
  | true =>
    refine ⟨s, c, by simp only [outerStep, hv, hve, Option.bind_eq_bind, Option.bind_some, if_true], hl, ?_⟩
    have hne : ¬ Out e := fun ho => by
      have := (h.unseen e ho (Nat.le_refl _)).1
      unfold St.vis at this
      rw [hve] at this; cases this
    have hlt : ∀ i, Out i → i < e + 1 → i < e := by
      intro i hi h1
      rcases Nat.lt_succ_iff_lt_or_eq.1 h1 with h1 | rfl
      · exact h1
      · exact absurd hi hne
    exact ⟨fun i hi h1 => h.unseen i hi (by omega), h.bound, fun i hi h1 => h.core i hi (hlt i hi h1),
      fun i j hi hj h1 h2 => h.own i j hi hj (hlt i hi h1) (hlt j hj h2)⟩
  | false =>
    obtain ⟨nb, enb, hnb, hnbl, hcore⟩ := hq.spec (minSamples := minSamples) he
    have hpl : e < s.pred.length := by rw [hl.2]; exact he
    have hvis' : ∀ (p : List Nat) (i : Nat), (St.mk (s.visited.set e true) p).vis i =
        (if i = e then true else s.vis i) := by
      intro p i
      unfold St.vis
      dsimp only
      rw [getD_set _ _ _ _ _ (by rw [hl.1]; exact he)]
    have hprd' : ∀ (v : List Bool) (l i : Nat), (St.mk v (s.pred.set e l)).prd i =
        (if i = e then l else s.prd i) := by
      intro v l i
      unfold St.prd
      dsimp only
      rw [getD_set _ _ _ _ _ hpl]
    by_cases hgt : nb.length > minSamples
    · have hce := hcore.1 hgt
      have hl1 : (St.mk (s.visited.set e true) (s.pred.set e (c + 1))).Len n :=
        ⟨by rw [List.length_set]; exact hl.1, by rw [List.length_set]; exact hl.2⟩
      have hnbn : ∀ y ∈ nb, y < n := fun y hy => ((hnb y).1 hy).1
      have hfuel : nb.length + n * unvisited (s.visited.set e true) < n * n + n + 1 := by
        have : unvisited (s.visited.set e true) ≤ n := by
          unfold unvisited
          refine Nat.le_trans List.countP_le_length ?_
          rw [List.length_set, hl.1]
        have := Nat.mul_le_mul_left n this
        omega
      obtain ⟨s', hs'⟩ := inner_some (minSamples := minSamples) hq (c := c + 1) (n * n + n + 1) nb
        ⟨s.visited.set e true, s.pred.set e (c + 1)⟩ hl1 hfuel hnbn
      obtain ⟨hl', g1, g2, g3⟩ := inner_char hq (Nat.succ_ne_zero c) _ nb _ s' hl1 hnbn hs'
      refine ⟨s', c + 1, ?_, hl', ?_⟩
      · simp only [outerStep, hv, hve, enb, Option.bind_eq_bind, Option.bind_some, hpl, if_true, hgt]
        simp [hs']
      have hno : ∀ i, Out i → ¬ (i ∈ nb ∨ Reach n N minSamples nb
          (St.mk (s.visited.set e true) (s.pred.set e (c + 1))).vis i) := by
        intro i hi hh
        have h1 : i ∈ nb → False := fun h1 => by
          have := ((hnb i).1 h1).2
          rw [hout e i hi] at this; cases this
        rcases hh with hh | hh
        · exact h1 hh
        · rcases hh.target with hh | ⟨z, hz⟩
          · exact h1 hh
          · rw [hout z i hi] at hz; cases hz
      have hpr : ∀ i, Out i → s'.prd i = if i = e then c + 1 else s.prd i := by
        intro i hi
        rw [g3 i (fun hh => hno i hi hh.2), hprd']
      refine ⟨fun i hi h1 => ⟨?_, ?_⟩, fun i => ?_, fun i hi h1 => ?_, fun i j hi hj h1 h2 hij hci => ?_⟩
      · have h2 := (h.unseen i hi (by omega)).1
        cases hs : s'.vis i with
        | false => rfl
        | true =>
          exfalso
          rcases (g1 i).1 hs with h3 | h3
          · rw [hvis', if_neg (by omega), h2] at h3; cases h3
          · exact hno i hi (Or.inr h3)
      · rw [hpr i hi, if_neg (by omega)]
        exact (h.unseen i hi (by omega)).2
      · by_cases hh : (St.mk (s.visited.set e true) (s.pred.set e (c + 1))).prd i = 0 ∧
            (i ∈ nb ∨ Reach n N minSamples nb
              (St.mk (s.visited.set e true) (s.pred.set e (c + 1))).vis i)
        · rw [g2 i hh.1 hh.2]
        · rw [g3 i hh, hprd']
          have := h.bound i
          split <;> omega
      · rw [hpr i hi]
        by_cases hie : i = e
        · subst hie; simp [hce]
        · rw [if_neg hie]; exact h.core i hi (by omega)
      · rw [hpr i hi, hpr j hj]
        have hbi := h.bound i
        have hbj := h.bound j
        by_cases hie : i = e
        · rw [if_pos hie, if_neg (by omega)]; omega
        · rw [if_neg hie]
          by_cases hje : j = e
          · rw [if_pos hje]; omega
          · rw [if_neg hje]
            exact h.own i j hi hj (by omega) (by omega) hij hci
    · have hce : ¬ Core n N minSamples e := fun hc => hgt (hcore.2 hc)
      refine ⟨⟨s.visited.set e true, s.pred.set e 0⟩, c, ?_,
        ⟨by rw [List.length_set]; exact hl.1, by rw [List.length_set]; exact hl.2⟩, ?_⟩
      · simp only [outerStep, hv, hve, enb, Option.bind_eq_bind, Option.bind_some, hpl, if_true, hgt]
        simp
      refine ⟨fun i hi h1 => ⟨?_, ?_⟩, fun i => ?_, fun i hi h1 => ?_, fun i j hi hj h1 h2 hij hci => ?_⟩
      · rw [hvis', if_neg (by omega)]; exact (h.unseen i hi (by omega)).1
      · rw [hprd', if_neg (by omega)]; exact (h.unseen i hi (by omega)).2
      · rw [hprd']
        have := h.bound i
        split <;> omega
      · rw [hprd']
        by_cases hie : i = e
        · subst hie; simp [hce]
        · rw [if_neg hie]; exact h.core i hi (by omega)
      · rw [hprd', hprd']
        have hie : i ≠ e := fun hh => hce (hh ▸ hci)
        rw [if_neg hie]
        by_cases hje : j = e
        · rw [if_pos hje]; exact (h.core i hi (by omega)).2 hci
        · rw [if_neg hje]
          exact h.own i j hi hj (by omega) (by omega) hij hci

/-- `predict` for a neighbour relation that is not symmetric: defined, one label for every sample,
and the labels of the samples that nothing points at. -/
theorem predict_out {Out : Nat → Prop} (hout : ∀ i j, Out j → N i j = false)
    {query : Nat → Option (List Nat)} (hq : QueryOk n N query) :
    ∃ label, predict query minSamples n = some label ∧ label.length = n ∧
      (∀ i, i < n → Out i → (label.getD i 0 ≠ 0 ↔ Core n N minSamples i)) ∧
      ∀ i j, i < n → j < n → Out i → Out j → i ≠ j → Core n N minSamples i →
        label.getD i 0 ≠ label.getD j 0 := by
  have key : ∀ k, k ≤ n → ∃ s c, (List.range k).foldlM (outerStep query minSamples n)
      ({ visited := List.replicate n false, pred := List.replicate n 0 }, 0) = some (s, c) ∧
      s.Len n ∧ OutInv n N minSamples Out k c s.vis s.prd := by
    intro k
    induction k with
    | zero =>
      intro _
      have hp : ∀ i, (St.mk (List.replicate n false) (List.replicate n 0)).prd i = 0 := by
        intro i; simp [St.prd, List.getElem?_replicate]; split <;> rfl
      have hv : ∀ i, (St.mk (List.replicate n false) (List.replicate n 0)).vis i = false := by
        intro i; simp [St.vis, List.getElem?_replicate]; split <;> rfl
      exact ⟨_, _, rfl, ⟨by simp, by simp⟩, fun i _ _ => ⟨hv i, hp i⟩, fun i => by rw [hp],
        fun i _ h => by omega, fun i j _ _ h => by omega⟩
    | succ k ih =>
      intro hk
      obtain ⟨s, c, h1, hl, h⟩ := ih (by omega)
      obtain ⟨s', c', h2, hl', h'⟩ := outer_out hout hq (show k < n by omega) s hl h
      refine ⟨s', c', ?_, hl', h'⟩
      rw [List.range_succ, List.foldlM_append, h1]
      simp [h2]
  obtain ⟨s, c, h1, hl, h⟩ := key n (Nat.le_refl _)
  exact ⟨s.pred, by simp [predict, h1], hl.2, fun i hi ho => h.core i ho hi,
    fun i j hi hj ho ho' => h.own i j ho ho' hi hj⟩

/-! ### queries that agree except on samples that are not core -/

/-- Both queries give the same neighbours, or both give too few. -/
def SameQuery (minSamples : Nat) (q q' : Nat → Option (List Nat)) (i : Nat) : Prop :=
  q i = q' i ∨ ∃ a b, q i = some a ∧ q' i = some b ∧ a.length ≤ minSamples ∧ b.length ≤ minSamples

theorem inner_congr {q q' : Nat → Option (List Nat)}
    (h : ∀ i, i < n → SameQuery minSamples q q' i) {c : Nat} :
    ∀ (fuel : Nat) (rest : List Nat) (s : St), s.visited.length = n →
      inner q minSamples c fuel rest s = inner q' minSamples c fuel rest s := by
  intro fuel
  induction fuel with
  | zero => intro rest s _; rfl
  | succ fuel ih =>
    intro rest s hl
    cases rest with
    | nil => rfl
    | cons x rest =>
      by_cases hx : x < n
      · have hv := getElem?_getD (l := s.visited) (i := x) (by rw [hl]; exact hx) false
        cases hvx : s.visited.getD x false with
        | true =>
          simp only [inner, hv, hvx, Option.bind_eq_bind, Option.bind_some, if_true]
          cases s.pred[x]? with
          | none => rfl
          | some p => exact ih _ _ hl
        | false =>
          simp only [inner, hv, hvx, Option.bind_eq_bind, Option.bind_some, Bool.false_eq_true, if_false]
          have hl' : (s.visited.set x true).length = n := by rw [List.length_set]; exact hl
          rcases h x hx with hqq | ⟨a, b, ha, hb, h1, h2⟩
          · rw [hqq]
            cases q' x with
            | none => rfl
            | some nb =>
              simp only [Option.bind_some]
              by_cases hgt : nb.length > minSamples
              · simp only [hgt, if_true]
                cases filterUnvisited (s.visited.set x true) nb with
                | none => rfl
                | some new =>
                  simp only [Option.bind_some]
                  cases s.pred[x]? with
                  | none => rfl
                  | some p => exact ih _ _ hl'
              · simp only [hgt, if_false, Option.bind_some]
                cases s.pred[x]? with
                | none => rfl
                | some p => exact ih _ _ hl'
          · rw [ha, hb]
            simp only [Option.bind_some, show ¬ a.length > minSamples by omega,
              show ¬ b.length > minSamples by omega, if_false]
            cases s.pred[x]? with
            | none => rfl
            | some p => exact ih _ _ hl'
      · have : s.visited[x]? = none := by rw [List.getElem?_eq_none_iff]; omega
        simp [inner, this]

theorem inner_visited {q : Nat → Option (List Nat)} {c : Nat} :
    ∀ (fuel : Nat) (rest : List Nat) (s s' : St), inner q minSamples c fuel rest s = some s' →
      s'.visited.length = s.visited.length := by
  intro fuel
  induction fuel with
  | zero => intro rest s s' h; simp [inner] at h
  | succ fuel ih =>
    intro rest s s' h
    cases rest with
    | nil => simp only [inner, Option.some.injEq] at h; rw [h]
    | cons x rest =>
      simp only [inner, Option.bind_eq_bind, Option.bind_eq_some_iff] at h
      obtain ⟨v, _, h⟩ := h
      split at h
      · simp only [Option.bind_some, Option.bind_eq_some_iff] at h
        obtain ⟨p, _, h⟩ := h
        have := ih _ _ _ h
        exact this
      · simp only [Option.bind_eq_some_iff] at h
        obtain ⟨nb, _, h⟩ := h
        split at h
        · simp only [Option.bind_some, Option.bind_eq_some_iff] at h
          obtain ⟨new, _, p, _, h⟩ := h
          rw [ih _ _ _ h, List.length_set]
        · simp only [Option.bind_some, Option.bind_eq_some_iff] at h
          obtain ⟨p, _, h⟩ := h
          rw [ih _ _ _ h, List.length_set]

theorem outer_congr {q q' : Nat → Option (List Nat)}
    (h : ∀ i, i < n → SameQuery minSamples q q' i) {e : Nat} (he : e < n) (sl : St × Nat)
    (hl : sl.1.visited.length = n) :
    outerStep q minSamples n sl e = outerStep q' minSamples n sl e := by
  obtain ⟨s, c⟩ := sl
  have hl' : (s.visited.set e true).length = n := by rw [List.length_set]; exact hl
  have hv := getElem?_getD (l := s.visited) (i := e) (by rw [hl]; exact he) false
  rcases h e he with hqq | ⟨a, b, ha, hb, h1, h2⟩
  · simp only [outerStep, hqq, inner_congr h _ _ (St.mk (s.visited.set e true) _) hl']
  · simp only [outerStep, ha, hb, hv, Option.bind_eq_bind, Option.bind_some,
      show ¬ a.length > minSamples by omega, show ¬ b.length > minSamples by omega, if_false]

theorem outer_visited {q : Nat → Option (List Nat)} {e : Nat} {sl sl' : St × Nat}
    (h : outerStep q minSamples n sl e = some sl') : sl'.1.visited.length = sl.1.visited.length := by
  obtain ⟨s, c⟩ := sl
  simp only [outerStep, Option.bind_eq_bind, Option.bind_eq_some_iff] at h
  obtain ⟨v, _, h⟩ := h
  split at h
  · simp only [Option.some.injEq] at h; rw [← h]
  · simp only [Option.bind_eq_some_iff] at h
    obtain ⟨nb, _, h⟩ := h
    split at h
    · split at h
      · simp only [Option.bind_eq_some_iff] at h
        obtain ⟨s', h1, h2⟩ := h
        simp only [Option.some.injEq] at h2
        rw [← h2]
        have := inner_visited _ _ _ _ h1
        dsimp only at this ⊢
        rw [this, List.length_set]
      · simp only [Option.some.injEq] at h
        rw [← h]; dsimp only; rw [List.length_set]
    · cases h

theorem predict_congr {q q' : Nat → Option (List Nat)}
    (h : ∀ i, i < n → SameQuery minSamples q q' i) :
    predict q minSamples n = predict q' minSamples n := by
  have key : ∀ (l : List Nat) (sl : St × Nat), (∀ e ∈ l, e < n) → sl.1.visited.length = n →
      l.foldlM (outerStep q minSamples n) sl = l.foldlM (outerStep q' minSamples n) sl := by
    intro l
    induction l with
    | nil => intro sl _ _; rfl
    | cons e l ih =>
      intro sl hle hl
      rw [List.foldlM_cons, List.foldlM_cons, outer_congr h (hle e (by simp)) sl hl]
      cases ho : outerStep q' minSamples n sl e with
      | none => rfl
      | some sl' =>
        exact ih sl' (fun e' he' => hle e' (by simp [he'])) ((outer_visited ho).trans hl)
  unfold predict
  rw [key _ _ (fun e he => List.mem_range.1 he) (by simp)]

/-! ### labels of a sub-dataset -/

section Sub

variable {m : Nat} {σ : Nat → Nat} {S : Nat → Bool}

/-- `σ` lists the samples of `S` in increasing order. -/
structure Lists (n m : Nat) (σ : Nat → Nat) (S : Nat → Bool) : Prop where
  lt : ∀ k, k < m → σ k < n ∧ S (σ k) = true
  mono : ∀ k l, k < m → l < m → (σ k < σ l ↔ k < l)
  onto : ∀ i, i < n → S i = true → ∃ k, k < m ∧ σ k = i

/-- The neighbour relation between samples of `S`. -/
def inside (S : Nat → Bool) (N : Nat → Nat → Bool) (i j : Nat) : Bool := S i && N i j && S j

theorem Lists.inj (h : Lists n m σ S) {k l : Nat} (hk : k < m) (hl : l < m) (e : σ k = σ l) :
    k = l := by
  have h1 := h.mono k l hk hl
  have h2 := h.mono l k hl hk
  omega

theorem Lists.filter_perm (h : Lists n m σ S) :
    ((List.range n).filter S).Perm ((List.range m).map σ) := by
  refine (List.perm_ext_iff_of_nodup (List.nodup_range.filter _) ?_).2 fun i => ?_
  · exact List.nodup_range.map_on
      (fun a ha b hb e => h.inj (List.mem_range.1 ha) (List.mem_range.1 hb) e)
  · simp only [List.mem_filter, List.mem_range, List.mem_map]
    constructor
    · rintro ⟨h1, h2⟩; exact h.onto i h1 h2
    · rintro ⟨k, h1, rfl⟩; exact h.lt k h1

theorem Lists.degree (h : Lists n m σ S) {k : Nat} (hk : k < m) :
    degree n (inside S N) (σ k) = degree m (fun a b => N (σ a) (σ b)) k := by
  have h1 : (List.range n).filter (inside S N (σ k)) =
      ((List.range n).filter S).filter (N (σ k)) := by
    rw [List.filter_filter]
    refine List.filter_congr fun j _ => ?_
    simp [inside, (h.lt k hk).2]
  unfold DBSCAN.degree
  rw [h1, (h.filter_perm.filter _).length_eq, List.filter_map, List.length_map]
  rfl

theorem Lists.core (h : Lists n m σ S) {k : Nat} (hk : k < m) :
    Core n (inside S N) minSamples (σ k) ↔ Core m (fun a b => N (σ a) (σ b)) minSamples k := by
  unfold Core
  rw [h.degree hk]
  exact ⟨fun g => ⟨hk, g.2⟩, fun g => ⟨(h.lt k hk).1, g.2⟩⟩

theorem core_inside {i : Nat} (h : Core n (inside S N) minSamples i) : S i = true := by
  cases hs : S i with
  | true => rfl
  | false =>
    have : degree n (inside S N) i = 0 := by
      unfold DBSCAN.degree
      rw [List.length_eq_zero_iff, List.filter_eq_nil_iff]
      intro j _
      simp [inside, hs]
    have := h.2
    omega

theorem Lists.preimage (h : Lists n m σ S) {i : Nat} (hc : Core n (inside S N) minSamples i) :
    ∃ k, k < m ∧ σ k = i := h.onto i hc.1 (core_inside hc)

theorem Lists.near (h : Lists n m σ S) {k l : Nat} (hk : k < m) (hl : l < m) :
    inside S N (σ k) (σ l) = N (σ k) (σ l) := by
  simp [inside, (h.lt k hk).2, (h.lt l hl).2]

theorem Lists.connected (h : Lists n m σ S) {k l : Nat} (hk : k < m) (hl : l < m) :
    DensityConnected n (inside S N) minSamples (σ k) (σ l) ↔
      DensityConnected m (fun a b => N (σ a) (σ b)) minSamples k l := by
  unfold DensityConnected
  rw [h.core hk, h.core hl]
  refine and_congr_right fun _ => and_congr_right fun _ => ?_
  constructor
  · intro g
    have : ∀ b, Relation.ReflTransGen (fun a b => Core n (inside S N) minSamples a ∧
        Core n (inside S N) minSamples b ∧ inside S N a b = true) (σ k) b → ∀ l, l < m → σ l = b →
        Relation.ReflTransGen (fun a b => Core m (fun a b => N (σ a) (σ b)) minSamples a ∧
          Core m (fun a b => N (σ a) (σ b)) minSamples b ∧ N (σ a) (σ b) = true) k l := by
      intro b hb
      induction hb with
      | refl =>
        intro j hj e
        rw [h.inj hj hk e]
      | @tail a b h1 h2 ih =>
        intro j hj e
        obtain ⟨a', ha', rfl⟩ := h.preimage h2.1
        subst e
        exact (ih a' ha' rfl).tail ⟨(h.core ha').1 h2.1, (h.core hj).1 h2.2.1,
          by rw [← h.near (N := N) ha' hj]; exact h2.2.2⟩
    exact this _ g l hl rfl
  · intro g
    clear hl
    induction g with
    | refl => exact .refl
    | @tail a b h1 h2 ih =>
      exact (ih h2.1).tail ⟨(h.core h2.1.1).2 h2.1, (h.core h2.2.1.1).2 h2.2.1,
        by rw [h.near h2.1.1 h2.2.1.1]; exact h2.2.2⟩

theorem Lists.first (h : Lists n m σ S) {k : Nat} (hk : k < m) :
    First n (inside S N) minSamples (σ k) ↔ First m (fun a b => N (σ a) (σ b)) minSamples k := by
  unfold First
  rw [h.core hk]
  refine and_congr_right fun _ => ⟨fun g l hl => ?_, fun g j hj => ?_⟩
  · have hlm := hl.2.1.1
    have := g (σ l) ((h.connected hk hlm).2 hl)
    have := h.mono l k hlm hk
    omega
  · obtain ⟨l, hl, rfl⟩ := h.preimage hj.2.1
    have := g l ((h.connected hk hl).1 hj)
    have := h.mono l k hl hk
    omega

theorem Lists.takes (h : Lists n m σ S) {k l : Nat} (hk : k < m) (hl : l < m) :
    Takes n (inside S N) minSamples (σ k) (σ l) ↔
      Takes m (fun a b => N (σ a) (σ b)) minSamples k l := by
  unfold Takes
  rw [h.first hk, h.near hk hl, h.mono k l hk hl]
  refine and_congr_right fun _ => and_congr ⟨fun _ => hl, fun _ => (h.lt l hl).1⟩
    (or_congr ⟨fun e => h.inj hl hk e, fun e => e ▸ rfl⟩ (or_congr Iff.rfl
      (and_congr_right fun _ => ?_)))
  constructor
  · rintro ⟨j, h1, h2⟩
    obtain ⟨j', hj', rfl⟩ := h.preimage h1.2.1
    exact ⟨j', (h.connected hk hj').1 h1, (h.near hj' hl).symm.trans h2⟩
  · rintro ⟨j, h1, h2⟩
    exact ⟨σ j, (h.connected hk h1.2.1.1).2 h1, by rw [h.near h1.2.1.1 hl]; exact h2⟩

theorem Lists.clustersBelow (h : Lists n m σ S) {k : Nat} (hk : k < m) :
    clustersBelow n (inside S N) minSamples (σ k) =
      clustersBelow m (fun a b => N (σ a) (σ b)) minSamples k := by
  classical
  unfold DBSCAN.clustersBelow
  have hp : ((List.range (σ k)).filter (fun j => First n (inside S N) minSamples j)).Perm
      (((List.range k).filter
        (fun j => First m (fun a b => N (σ a) (σ b)) minSamples j)).map σ) := by
    refine (List.perm_ext_iff_of_nodup (List.nodup_range.filter _) ?_).2 fun i => ?_
    · refine (List.nodup_range.filter _).map_on (fun a ha b hb e => h.inj ?_ ?_ e)
      · have := List.mem_range.1 (List.mem_filter.1 ha).1; omega
      · have := List.mem_range.1 (List.mem_filter.1 hb).1; omega
    · simp only [List.mem_filter, List.mem_range, List.mem_map, decide_eq_true_eq]
      constructor
      · rintro ⟨h1, h2⟩
        obtain ⟨l, hl, rfl⟩ := h.preimage h2.1
        exact ⟨l, ⟨(h.mono l k hl hk).1 h1, (h.first hl).1 h2⟩, rfl⟩
      · rintro ⟨l, ⟨h1, h2⟩, rfl⟩
        exact ⟨(h.mono l k (by omega) hk).2 h1, (h.first (by omega)).2 h2⟩
  rw [hp.length_eq, List.length_map]

/-- The labels of the samples of `S` are those of the data set made of these samples alone. -/
theorem Lists.isLabel (h : Lists n m σ S) {k l : Nat} (hk : k < m) :
    IsLabel n (inside S N) minSamples (σ k) l ↔
      IsLabel m (fun a b => N (σ a) (σ b)) minSamples k l := by
  have hpre : ∀ {t}, Takes n (inside S N) minSamples t (σ k) → ∃ t', t' < m ∧ σ t' = t :=
    fun ht => h.preimage ht.1.1
  unfold IsLabel
  constructor
  · rintro (⟨h1, h2⟩ | ⟨t, h1, h2, h3⟩)
    · exact Or.inl ⟨h1, fun t ht => h2 _ ((h.takes ht.1.1.1 hk).2 ht)⟩
    · obtain ⟨t, ht, rfl⟩ := hpre h1
      refine Or.inr ⟨t, (h.takes ht hk).1 h1, fun t' ht' => ?_, ?_⟩
      · have := h2 _ ((h.takes ht'.1.1.1 hk).2 ht')
        have := h.mono t' t ht'.1.1.1 ht
        omega
      · rw [h3, h.clustersBelow ht]
  · rintro (⟨h1, h2⟩ | ⟨t, h1, h2, h3⟩)
    · refine Or.inl ⟨h1, fun t ht => ?_⟩
      obtain ⟨t, htm, rfl⟩ := hpre ht
      exact h2 t ((h.takes htm hk).1 ht)
    · have htm := h1.1.1.1
      refine Or.inr ⟨σ t, (h.takes htm hk).2 h1, fun t' ht' => ?_, ?_⟩
      · obtain ⟨t', ht'm, rfl⟩ := hpre ht'
        have := h2 _ ((h.takes ht'm hk).1 ht')
        have := h.mono t' t ht'm htm
        omega
      · rw [h3, h.clustersBelow htm]

theorem isLabel_outside {i l : Nat} (hs : S i = false) (h : IsLabel n (inside S N) minSamples i l) :
    l = 0 := by
  rcases h with ⟨h1, _⟩ | ⟨t, ⟨h1, _, h2⟩, _, _⟩
  · exact h1
  · exfalso
    rcases h2 with rfl | h2 | ⟨_, k, h3, h4⟩
    · have := core_inside h1.1; rw [hs] at this; cases this
    · simp [inside, hs] at h2
    · simp [inside, hs] at h4

end Sub

end Verif.DBSCAN
