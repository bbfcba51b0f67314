import Verif.Model.DBSCANTrace
import Verif.Props.DBSCAN

/-
C102: the work of DBSCAN: one radius query for each sample, and no more iterations of the inner loop than
there are pairs of samples within the radius.
-/

namespace Verif.DBSCAN

open Verif.KDTree Verif.Search Verif.Distances Verif.Sorting

variable (query : Nat → Option (List Nat)) (minSamples n : Nat)

/-! ### the trace does not change the labels -/

theorem innerT_fst (label : Nat) : ∀ (fuel : Nat) (rest : List Nat) (s : St) (tr : Trace),
    (innerT query minSamples label fuel rest s tr).map Prod.fst =
      inner query minSamples label fuel rest s
  | 0, _, _, _ => rfl
  | _ + 1, [], _, _ => rfl
  | fuel + 1, x :: rest, s, tr => by
    rw [innerT, inner]
    cases hv : s.visited[x]? with
    | none => rfl
    | some v =>
      cases v with
      | true =>
        cases hp : s.pred[x]? with
        | none => simp
        | some p => simpa [hp] using innerT_fst label fuel _ _ _
      | false =>
        cases hq : query x with
        | none => simp
        | some nb =>
          by_cases hm : nb.length > minSamples
          · cases hf : filterUnvisited (s.visited.set x true) nb with
            | none => simp [hm, hf]
            | some new =>
              cases hp : s.pred[x]? with
              | none => simp [hm, hf]
              | some p => simpa [hm, hf, hp] using innerT_fst label fuel _ _ _
          · cases hp : s.pred[x]? with
            | none => simp [hm]
            | some p => simpa [hm, hp] using innerT_fst label fuel _ _ _

theorem outerStepT_fst (slt : (St × Nat) × Trace) (e : Nat) :
    (outerStepT query minSamples n slt e).map Prod.fst = outerStep query minSamples n slt.1 e := by
  obtain ⟨⟨s, label⟩, tr⟩ := slt
  rw [outerStepT, outerStep]
  cases hv : s.visited[e]? with
  | none => rfl
  | some v =>
    cases v with
    | true => rfl
    | false =>
      cases hq : query e with
      | none => rfl
      | some nb =>
        by_cases he : e < s.pred.length
        · by_cases hm : nb.length > minSamples
          · have h := innerT_fst query minSamples (label + 1) (n * n + n + 1) nb
              { visited := s.visited.set e true, pred := s.pred.set e (label + 1) }
              { tr with queries := tr.queries ++ [e] }
            cases hi : innerT query minSamples (label + 1) (n * n + n + 1) nb
                { visited := s.visited.set e true, pred := s.pred.set e (label + 1) }
                { tr with queries := tr.queries ++ [e] } with
            | none => rw [hi] at h; simp [he, hm, hi, ← h]
            | some r => rw [hi] at h; simp [he, hm, hi, ← h]
          · simp [he, hm]
        · simp [he]

theorem foldT_fst : ∀ (l : List Nat) (slt : (St × Nat) × Trace),
    (l.foldlM (outerStepT query minSamples n) slt).map Prod.fst =
      l.foldlM (outerStep query minSamples n) slt.1
  | [], _ => rfl
  | e :: l, slt => by
    rw [List.foldlM_cons, List.foldlM_cons, ← outerStepT_fst]
    cases outerStepT query minSamples n slt e with
    | none => rfl
    | some r => exact foldT_fst l r

/-- The labels of `predictT` are those of `predict`. -/
theorem predictT_fst : (predictT query minSamples n).map Prod.fst = predict query minSamples n := by
  rw [predictT, predict, ← foldT_fst query minSamples n (List.range n)
    (({ visited := List.replicate n false, pred := List.replicate n 0 }, 0), { queries := [], steps := 0 })]
  cases (List.range n).foldlM (outerStepT query minSamples n)
    (({ visited := List.replicate n false, pred := List.replicate n 0 }, 0),
      { queries := [], steps := 0 }) <;> rfl

/-! ### the work -/

/-- Number of samples that the query around `i` returns. -/
def answer (i : Nat) : Nat := ((query i).getD []).length

/-- The queries so far are those of the visited samples, each made once, and the steps made and to be made
are paid for by their answers. -/
structure TInv (visited : List Bool) (rest : List Nat) (tr : Trace) : Prop where
  len : visited.length = n
  nodup : tr.queries.Nodup
  mem : ∀ i, i ∈ tr.queries ↔ visited[i]? = some true
  paid : tr.steps + rest.length ≤ (tr.queries.map (answer query)).sum

theorem filterUnvisited_length {visited : List Bool} : ∀ {l new : List Nat},
    filterUnvisited visited l = some new → new.length ≤ l.length
  | [], new, h => by simp [filterUnvisited] at h; simp [← h]
  | y :: ys, new, h => by
    rw [filterUnvisited] at h
    cases hv : visited[y]? with
    | none => simp [hv] at h
    | some v =>
      cases hr : filterUnvisited visited ys with
      | none => simp [hv, hr] at h
      | some r =>
        have := filterUnvisited_length hr
        simp [hv, hr] at h
        subst h
        split <;> simp <;> omega

variable {query minSamples n}

/-- Visiting one more sample. -/
theorem TInv.visit {visited : List Bool} {rest rest' nb : List Nat} {tr : Trace} {x steps : Nat}
    (h : TInv query n visited rest tr) (hv : visited[x]? = some false) (hq : query x = some nb)
    (hs : steps + rest'.length ≤ tr.steps + rest.length + nb.length) :
    TInv query n (visited.set x true) rest' { queries := tr.queries ++ [x], steps := steps } := by
  have hx : x < visited.length := (List.getElem?_eq_some_iff.1 hv).1
  refine ⟨by simp [h.len], ?_, ?_, ?_⟩
  · refine List.nodup_append.2 ⟨h.nodup, by simp, ?_⟩
    intro a ha b hb hab
    rw [List.mem_singleton] at hb
    subst hb
    subst hab
    rw [(h.mem a).1 ha] at hv
    simp at hv
  · intro i
    by_cases hi : i = x
    · subst hi; simp [hx]
    · simp [hi, h.mem i, List.getElem?_set_ne (fun e => hi e.symm)]
  · have := h.paid
    simp [answer, hq] at this ⊢
    omega

theorem innerT_inv (label : Nat) : ∀ (fuel : Nat) (rest : List Nat) (s s' : St) (tr tr' : Trace),
    TInv query n s.visited rest tr → innerT query minSamples label fuel rest s tr = some (s', tr') →
    TInv query n s'.visited [] tr' ∧ ∀ i ∈ tr.queries, i ∈ tr'.queries
  | 0, _, _, _, _, _, _, e => by simp [innerT] at e
  | _ + 1, [], s, s', tr, tr', h, e => by
    simp [innerT] at e
    obtain ⟨rfl, rfl⟩ := e
    exact ⟨h, fun _ hi => hi⟩
  | fuel + 1, x :: rest, s, s', tr, tr', h, e => by
    rw [innerT] at e
    cases hv : s.visited[x]? with
    | none => simp [hv] at e
    | some v =>
      cases hp : s.pred[x]? with
      | none =>
        cases v with
        | true => simp [hv, hp] at e
        | false =>
          cases hq : query x with
          | none => simp [hv, hq] at e
          | some nb =>
            by_cases hm : nb.length > minSamples
            · cases hf : filterUnvisited (s.visited.set x true) nb <;> simp [hv, hq, hm, hf, hp] at e
            · simp [hv, hq, hm, hp] at e
      | some p =>
        cases v with
        | true =>
          simp [hv, hp] at e
          have h' : TInv query n s.visited rest { queries := tr.queries, steps := tr.steps + 1 } := by
            refine ⟨h.len, h.nodup, h.mem, ?_⟩
            have := h.paid
            simp at this ⊢
            omega
          obtain ⟨h1, h2⟩ := innerT_inv label fuel rest
            { visited := s.visited, pred := if p = 0 then s.pred.set x label else s.pred } s' _ tr' h' e
          exact ⟨h1, h2⟩
        | false =>
          cases hq : query x with
          | none => simp [hv, hq] at e
          | some nb =>
            by_cases hm : nb.length > minSamples
            · cases hf : filterUnvisited (s.visited.set x true) nb with
              | none => simp [hv, hq, hm, hf] at e
              | some new =>
                have hl := filterUnvisited_length hf
                simp [hv, hq, hm, hf, hp] at e
                obtain ⟨h1, h2⟩ := innerT_inv label fuel _ _ s' _ tr'
                  (h.visit hv hq (rest' := rest ++ new) (steps := tr.steps + 1)
                    (by simp; omega)) e
                exact ⟨h1, fun i hi => h2 i (by simp [hi])⟩
            · simp [hv, hq, hm, hp] at e
              obtain ⟨h1, h2⟩ := innerT_inv label fuel _ _ s' _ tr'
                (h.visit hv hq (rest' := rest) (steps := tr.steps + 1) (by simp; omega)) e
              exact ⟨h1, fun i hi => h2 i (by simp [hi])⟩

theorem outerStepT_inv {slt slt' : (St × Nat) × Trace} {e : Nat}
    (h : TInv query n slt.1.1.visited [] slt.2)
    (he : outerStepT query minSamples n slt e = some slt') :
    TInv query n slt'.1.1.visited [] slt'.2 ∧ e ∈ slt'.2.queries ∧
      ∀ i ∈ slt.2.queries, i ∈ slt'.2.queries := by
  rw [outerStepT] at he
  cases hv : slt.1.1.visited[e]? with
  | none => simp [hv] at he
  | some v =>
    cases v with
    | true =>
      simp [hv] at he
      subst he
      exact ⟨h, (h.mem e).2 hv, fun _ hi => hi⟩
    | false =>
      cases hq : query e with
      | none => simp [hv, hq] at he
      | some nb =>
        by_cases hl : e < slt.1.1.pred.length
        · by_cases hm : nb.length > minSamples
          · simp only [hv, hq, hl, hm, Option.bind_eq_bind, Option.bind_some, if_true,
              Bool.false_eq_true, if_false] at he
            obtain ⟨r, hr, he⟩ := Option.bind_eq_some_iff.1 he
            obtain rfl : ((r.1, slt.1.2 + 1), r.2) = slt' := by simpa using he
            obtain ⟨h1, h2⟩ := innerT_inv _ _ _ _ r.1 _ r.2
              (h.visit hv hq (rest' := nb) (steps := slt.2.steps) (by simp)) hr
            exact ⟨h1, h2 e (by simp), fun i hi => h2 i (by simp [hi])⟩
          · simp [hv, hq, hl, hm] at he
            subst he
            exact ⟨h.visit hv hq (rest' := []) (steps := slt.2.steps) (by simp), by simp,
              fun i hi => by simp [hi]⟩
        · simp [hv, hq, hl] at he

theorem foldT_inv : ∀ (l : List Nat) {slt slt' : (St × Nat) × Trace},
    TInv query n slt.1.1.visited [] slt.2 →
    l.foldlM (outerStepT query minSamples n) slt = some slt' →
    TInv query n slt'.1.1.visited [] slt'.2 ∧ (∀ e ∈ l, e ∈ slt'.2.queries) ∧
      ∀ i ∈ slt.2.queries, i ∈ slt'.2.queries
  | [], slt, slt', h, e => by
    obtain rfl : slt = slt' := by simpa using e
    exact ⟨h, by simp, fun _ hi => hi⟩
  | a :: l, slt, slt', h, e => by
    rw [List.foldlM_cons] at e
    obtain ⟨m, hm, e⟩ := Option.bind_eq_some_iff.1 e
    obtain ⟨h1, h2, h3⟩ := outerStepT_inv h hm
    obtain ⟨g1, g2, g3⟩ := foldT_inv l h1 e
    refine ⟨g1, ?_, fun i hi => g3 i (h3 i hi)⟩
    intro b hb
    rcases List.mem_cons.1 hb with rfl | hb
    · exact g3 _ h2
    · exact g2 b hb

/-- **C102**, label propagation alone: a run that succeeds makes exactly one query around each of the `n`
samples, in some order, and at most as many iterations of the inner loop as the queries return samples. -/
theorem C102_abstract {labels : List Nat} {tr : Trace}
    (h : predictT query minSamples n = some (labels, tr)) :
    tr.queries.Perm (List.range n) ∧
      tr.steps ≤ ((List.range n).map (answer query)).sum := by
  rw [predictT] at h
  obtain ⟨r, hr, h⟩ := Option.bind_eq_some_iff.1 h
  obtain ⟨rfl, rfl⟩ : r.1.1.pred = labels ∧ r.2 = tr := by simpa using h
  obtain ⟨h1, h2, _⟩ := foldT_inv (List.range n) (by
    refine ⟨by simp, by simp, ?_, by simp⟩
    intro i
    simp [List.getElem?_replicate]) hr
  have hp : r.2.queries.Perm (List.range n) := by
    refine (List.perm_ext_iff_of_nodup h1.nodup List.nodup_range).2 fun i => ⟨fun hi => ?_, h2 i⟩
    rw [List.mem_range, ← h1.len]
    exact (List.getElem?_eq_some_iff.1 ((h1.mem i).1 hi)).1
  refine ⟨hp, ?_⟩
  have := h1.paid
  rw [← (hp.map (answer query)).sum_eq]
  simpa using this

/-- **C102**, end to end on floating data: the tree is searched exactly once around each sample, and the
inner loop makes at most as many iterations as there are ordered pairs of samples within the radius. -/
theorem C102_queries (eps : ℝ) (he : 0 ≤ eps) (nf n : Nat) (hn : n < 2 ^ 64)
    (x : Nat → Nat → ℝ) (dist : Nat → Nat → ℝ)
    (hd : ∀ i j, euclidean (row nf (x j)) (row nf (x i)) = some (dist i j))
    (radius inf : ℝ) (hinf : ∀ i p a, |x p a - x i a| < inf)
    (policy : List Nat → Nat → Box ℝ → Nat) (bucketSize maxDepth : Nat)
    (hpol : ∀ idx d box, policy idx d box < nf) (vmax vlowest : ℝ)
    (idx : List Nat) (hidx : idx.Perm (List.range n)) (minSamples : Nat) :
    ∃ idx' t label tr,
      make (eqEps eps) x policy bucketSize maxDepth nf vmax vlowest idx = some (idx', t) ∧
      predictTree x (fun v w => |v - w|) dist radius inf t minSamples n = some label ∧
      predictT (radiusQuery x (fun v w => |v - w|) dist radius inf t) minSamples n = some (label, tr) ∧
      tr.queries.Perm (List.range n) ∧
      tr.steps ≤ ((List.range n).map (degree n (within dist radius))).sum := by
  obtain ⟨idx', t, e, hN, hq⟩ := predictTree_query eps he nf n hn x dist hd radius inf hinf policy
    bucketSize maxDepth hpol vmax vlowest idx hidx
  obtain ⟨label, h1, _⟩ := predict_guarantees (minSamples := minSamples) hN hq
  have h2 := predictT_fst (radiusQuery x (fun v w => |v - w|) dist radius inf t) minSamples n
  rw [h1] at h2
  obtain ⟨⟨l, tr⟩, h3, rfl⟩ := Option.map_eq_some_iff.1 h2
  obtain ⟨h4, h5⟩ := C102_abstract h3
  refine ⟨idx', t, l, tr, e, h1, h3, h4, ?_⟩
  refine le_trans h5 (le_of_eq ?_)
  congr 1
  refine List.map_congr_left fun i hi => ?_
  obtain ⟨nb, h6, h7⟩ := hq i (List.mem_range.1 hi)
  simp [answer, h6, degree, h7.length_eq]

/-! ### concrete cases -/

/-- Five samples on a line, `j` within the radius of `i` when they differ by at most 1: the cluster 0-1-2,
the pair 3-4. One query each, five iterations of the inner loop, eleven pairs within the radius. -/
example : predictT (fun i => some ((List.range 5).filter fun j =>
      decide ((([0, 1, 2, 10, 11] : List Int).getD i 0 - ([0, 1, 2, 10, 11] : List Int).getD j 0).natAbs ≤ 1)))
      1 5 = some ([1, 1, 1, 2, 2], ⟨[0, 1, 2, 3, 4], 5⟩) := by decide +kernel

end Verif.DBSCAN
