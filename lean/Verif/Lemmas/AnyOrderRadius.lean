import Verif.Lemmas.AnyOrder
import Verif.Lemmas.DBSCAN

/-
Radius searches and DBSCAN with comparisons that need not be those of an order.
-/

namespace Verif.Search

open Verif.KDTree Verif.Buffer

variable {K D : Type} [LT K] [DecidableLT K] [LT D] [DecidableLT D]

/-- An unlimited buffer that holds samples accepted by `cand`, with their distances. -/
structure BufFree (cand : Nat → Option D) (b : Buf D) : Prop where
  cap_eq : b.maxCapacity = 0
  len : b.distances.length = b.indices.length
  mem : ∀ c ∈ b.indices.zip b.distances, cand c.1 = some c.2

theorem update_free {cand : Nat → Option D} {b : Buf D} (h : BufFree cand b) {i : Nat} {d : D}
    (hc : cand i = some d) (hlen : b.indices.length < 2 ^ 64) :
    ∃ b', b.update i d = some b' ∧ BufFree cand b' ∧ b'.indices = b.indices ++ [i] := by
  have hz : ∀ c ∈ (b.indices ++ [i]).zip (b.distances ++ [d]), cand c.1 = some c.2 := by
    intro c hcm
    rw [List.zip_append h.len.symm] at hcm
    rcases List.mem_append.1 hcm with hcm | hcm
    · exact h.mem c hcm
    · simp only [List.zip_cons_cons, List.zip_nil_right, List.mem_singleton] at hcm
      subst hcm; exact hc
  have hl2 : (b.distances ++ [d]).length = (b.indices ++ [i]).length := by simp [h.len]
  unfold Buf.update
  by_cases h0 : b.indices.length = 0
  · rw [if_pos h0]
    exact ⟨_, rfl, ⟨h.cap_eq, hl2, hz⟩, rfl⟩
  · have hrem : b.remaining ≠ 0 := by
      unfold Buf.remaining
      rw [h.cap_eq]
      unfold sizeMod
      rw [Nat.mod_eq_of_lt (by omega)]
      omega
    rw [if_neg h0, if_pos hrem]
    by_cases h1 : d < b.closestDistance
    · by_cases h2 : d > b.furthestDistance
      · simp only [h1, h2, if_true]; exact ⟨_, rfl, ⟨h.cap_eq, hl2, hz⟩, rfl⟩
      · simp only [h1, h2, if_true, if_false]; exact ⟨_, rfl, ⟨h.cap_eq, hl2, hz⟩, rfl⟩
    · by_cases h2 : d > b.furthestDistance
      · simp only [h1, h2, if_true, if_false]; exact ⟨_, rfl, ⟨h.cap_eq, hl2, hz⟩, rfl⟩
      · simp only [h1, h2, if_false]; exact ⟨_, rfl, ⟨h.cap_eq, hl2, hz⟩, rfl⟩

theorem offers_free {cand : Nat → Option D} : ∀ (L : List Nat) (b : Buf D), BufFree cand b →
    b.indices.length + L.length < 2 ^ 64 →
    ∃ b', L.foldlM (Buf.offer cand) b = some b' ∧ BufFree cand b' ∧
      b'.indices = b.indices ++ L.filter (fun i => (cand i).isSome) := by
  intro L
  induction L with
  | nil => intro b h _; exact ⟨b, rfl, h, by simp⟩
  | cons i L ih =>
    intro b h hl
    simp only [List.length_cons] at hl
    rw [List.foldlM_cons]
    cases hc : cand i with
    | none =>
      obtain ⟨b', e, h1, h2⟩ := ih b h (by omega)
      have he : Buf.offer cand b i = some b := by simp [Buf.offer, hc]
      refine ⟨b', by rw [he]; exact e, h1, ?_⟩
      rw [h2]; simp [hc]
    | some d =>
      obtain ⟨b1, e1, s1, l1⟩ := update_free h hc (by omega)
      obtain ⟨b', e, h1, h2⟩ := ih b1 s1 (by rw [l1]; simp; omega)
      have he : Buf.offer cand b i = some b1 := by simp [Buf.offer, hc, e1]
      refine ⟨b', by rw [he]; exact e, h1, ?_⟩
      rw [h2, l1]; simp [hc]

/-- A search with an unlimited buffer, whatever the comparisons. -/
theorem search_free [LE D] [DecidableLE D] (x : Nat → Nat → K) (q : Nat → K) (gap : K → K → D)
    (cand : Nat → Option D) (t : KDTree.Tree K) (inf : D) (hn : t.indices.length < 2 ^ 64) :
    ∃ b, search x q (staticOps x q gap cand) t (Buffer.mk inf 0) = some b ∧ BufFree cand b ∧
      b.indices.Subperm (t.indices.filter (fun i => (cand i).isSome)) := by
  obtain ⟨L, hL, e⟩ := walk_offers x q (staticOps x q gap cand) t (Buffer.mk inf 0)
  have hle := hL.length_le
  obtain ⟨b, e2, h1, h2⟩ := offers_free L (Buffer.mk inf 0) ⟨rfl, rfl, by simp [Buffer.mk]⟩
    (by simp only [Buffer.mk, List.length_nil]; omega)
  refine ⟨b, by rw [search_eq_walk, e]; exact e2, h1, ?_⟩
  rw [h2]
  obtain ⟨L', hp, hs⟩ := hL
  exact ⟨L'.filter _, by simpa [Buffer.mk] using hp.filter _, hs.filter _⟩

end Verif.Search

namespace Verif.DBSCAN

theorem inner_safe {query : Nat → Option (List Nat)} {n minSamples c : Nat}
    (hq : ∀ i < n, ∃ nb, query i = some nb ∧ nb.length ≤ n ∧ ∀ j ∈ nb, j < n) :
    ∀ (fuel : Nat) (rest : List Nat) (s : St), s.visited.length = n → s.pred.length = n →
      (∀ j ∈ rest, j < n) → rest.length + n * unvisited s.visited < fuel →
      ∃ s', inner query minSamples c fuel rest s = some s' ∧ s'.visited.length = n ∧ s'.pred.length = n := by
  intro fuel
  induction fuel with
  | zero => intro rest s _ _ _ h; omega
  | succ fuel ih =>
    intro rest s hl1 hl2 hrest hf
    cases rest with
    | nil => exact ⟨s, rfl, hl1, hl2⟩
    | cons x rest =>
      have hxn : x < n := hrest x (by simp)
      have hrest' : ∀ j ∈ rest, j < n := fun j hj => hrest j (by simp [hj])
      have hv := getElem?_getD (l := s.visited) (i := x) (by rw [hl1]; exact hxn) false
      have hp := getElem?_getD (l := s.pred) (i := x) (by rw [hl2]; exact hxn) 0
      have hlen' : (if s.pred.getD x 0 = 0 then s.pred.set x c else s.pred).length = n := by
        split
        · rw [List.length_set]; exact hl2
        · exact hl2
      simp only [List.length_cons] at hf
      cases hvx : s.visited.getD x false with
      | true =>
        simp only [inner, hv, hp, hvx, Option.bind_eq_bind, Option.bind_some, if_true]
        exact ih _ _ hl1 hlen' hrest' (by dsimp only; omega)
      | false =>
        obtain ⟨nb, enb, hnbl, hnb⟩ := hq x hxn
        have hun := unvisited_set (by rw [hl1]; exact hxn) hvx
        have hmeas : n * unvisited (s.visited.set x true) + n = n * unvisited s.visited := by
          rw [← hun, Nat.mul_add, Nat.mul_one]
        have hl1' : (s.visited.set x true).length = n := by rw [List.length_set]; exact hl1
        simp only [inner, hv, hp, hvx, enb, Option.bind_eq_bind, Option.bind_some, Bool.false_eq_true, if_false]
        by_cases hgt : nb.length > minSamples
        · have hfil := filterUnvisited_spec (visited := s.visited.set x true) nb
            (fun y hy => by rw [hl1']; exact hnb y hy)
          simp only [hgt, if_true, hfil, Option.bind_some]
          refine ih _ _ hl1' hlen' ?_ ?_
          · intro j hj
            rcases List.mem_append.1 hj with hj | hj
            · exact hrest' j hj
            · exact hnb j (List.mem_filter.1 hj).1
          · have : (nb.filter (fun y => !((s.visited.set x true).getD y false))).length ≤ nb.length :=
              List.length_filter_le _ _
            simp only [List.length_append]
            omega
        · simp only [hgt, if_false, Option.bind_some]
          exact ih _ _ hl1' hlen' hrest' (by dsimp only; omega)

theorem outer_safe {query : Nat → Option (List Nat)} {n minSamples : Nat}
    (hq : ∀ i < n, ∃ nb, query i = some nb ∧ nb.length ≤ n ∧ ∀ j ∈ nb, j < n) {s : St} {c e : Nat}
    (hl1 : s.visited.length = n) (hl2 : s.pred.length = n) (he : e < n) :
    ∃ s' c', outerStep query minSamples n (s, c) e = some (s', c') ∧ s'.visited.length = n ∧
      s'.pred.length = n := by
  have hv := getElem?_getD (l := s.visited) (i := e) (by rw [hl1]; exact he) false
  have hlp : e < s.pred.length := by rw [hl2]; exact he
  cases hve : s.visited.getD e false with
  | true =>
    refine ⟨s, c, ?_, hl1, hl2⟩
    simp only [outerStep, hv, hve, Option.bind_eq_bind, Option.bind_some, if_true]
  | false =>
    obtain ⟨nb, enb, hnbl, hnb⟩ := hq e he
    by_cases hgt : nb.length > minSamples
    · have hun : unvisited (s.visited.set e true) ≤ n := by
        unfold unvisited
        refine Nat.le_trans List.countP_le_length ?_
        exact Nat.le_of_eq (by rw [List.length_set, hl1])
      obtain ⟨s', e1, h1, h2⟩ := inner_safe hq (minSamples := minSamples) (c := c + 1) (n * n + n + 1) nb
        (St.mk (s.visited.set e true) (s.pred.set e (c + 1)))
        (by rw [List.length_set]; exact hl1) (by rw [List.length_set]; exact hl2) hnb
        (by
          have := Nat.mul_le_mul_left n hun
          dsimp only
          omega)
      refine ⟨s', c + 1, ?_, h1, h2⟩
      simp only [outerStep, hv, hve, enb, hgt, hlp, e1, Option.bind_eq_bind, Option.bind_some,
        if_true, if_false, Bool.false_eq_true]
    · refine ⟨⟨s.visited.set e true, s.pred.set e 0⟩, c, ?_, ?_, ?_⟩
      · simp only [outerStep, hv, hve, enb, hgt, hlp, Option.bind_eq_bind, Option.bind_some, if_true,
          if_false, Bool.false_eq_true]
      · rw [List.length_set]; exact hl1
      · rw [List.length_set]; exact hl2

/-- The label propagation is safe for any radius query that returns at most `n` existing samples. -/
theorem predict_safe {query : Nat → Option (List Nat)} {n : Nat} (minSamples : Nat)
    (hq : ∀ i < n, ∃ nb, query i = some nb ∧ nb.length ≤ n ∧ ∀ j ∈ nb, j < n) :
    ∃ label, predict query minSamples n = some label ∧ label.length = n := by
  have key : ∀ (L : List Nat) (s : St) (c : Nat), (∀ e ∈ L, e < n) → s.visited.length = n → s.pred.length = n →
      ∃ s' c', L.foldlM (outerStep query minSamples n) (s, c) = some (s', c') ∧ s'.pred.length = n := by
    intro L
    induction L with
    | nil => intro s c _ _ h; exact ⟨s, c, rfl, h⟩
    | cons e L ih =>
      intro s c hL h1 h2
      obtain ⟨s1, c1, e1, h3, h4⟩ := outer_safe hq (minSamples := minSamples) (c := c) h1 h2 (hL e (by simp))
      obtain ⟨s2, c2, e2, h5⟩ := ih s1 c1 (fun e he => hL e (by simp [he])) h3 h4
      exact ⟨s2, c2, by rw [List.foldlM_cons, e1]; exact e2, h5⟩
  obtain ⟨s, c, e, h⟩ := key (List.range n) ⟨List.replicate n false, List.replicate n 0⟩ 0
    (fun e he => List.mem_range.1 he) (by simp) (by simp)
  exact ⟨s.pred, by simp [predict, e], h⟩

end Verif.DBSCAN
