import Verif.Lemmas.DualTree
import Verif.Lemmas.DualTreeMany
import Verif.Lemmas.Search
import Verif.Spec.Search
import Verif.Props.Bounds
import Verif.Props.Distances
import Verif.Props.KDTree
import Verif.Props.UnionFind

/-
Property C65: the dual-tree search for the shortest edge between two sets.
-/

namespace Verif.DualTree

open Verif.KDTree Verif.Buffer Verif.Bounds Verif.Distances Verif.Search Verif.Sorting Spec

set_option linter.unusedSectionVars false

/-! ### any two trees -/

/-- **C65.** One neighbour per query, any two trees, any bounds of the nodes and any buffer: if the
distance of two nodes never exceeds the distance of a pair of their samples, the search returns a
closest pair among the admissible ones (`cand`), and when there is none the result is undefined (the
top of an empty queue). -/
theorem C65_shortest {K D S : Type} [LinearOrder K] [LinearOrder D] (env : Env K D S) (tq tr : KDTree.Tree K)
    (cand : Nat → Nat → Option D) (Good : S → Prop) (s : S) (hs : Good s)
    (hcap : env.capacity = 1) (hinf : ∀ d, d ≤ env.inf)
    (hadd : ∀ t ∈ nodes tq, ∀ c, c ≤ env.add c (env.diam t))
    (hlow : ∀ sq ∈ nodes tq, ∀ sr ∈ nodes tr, ∀ a ∈ sq.indices, ∀ b ∈ sr.indices, ∀ d,
      cand a b = some d → env.minDist sq sr ≤ d)
    (hfin : ∀ a b d, cand a b = some d → d < env.inf)
    (hoff : ∀ q ∈ tq.indices, ∀ s, Good s → ∀ b b', ∀ i ∈ tr.indices,
      Buf.offer (cand q) b i = some b' → ∃ s', Good s' ∧ env.offer q s b i = some (s', b')) :
    (∃ e, shortestEdge env s tq tr = some e ∧ IsShortest cand tq.indices tr.indices e) ∨
    (shortestEdge env s tq tr = none ∧ ∀ a ∈ tq.indices, ∀ b ∈ tr.indices, cand a b = none) := by
  have ok : Ok env tq tr cand id Good := ⟨hcap, hinf, hadd, fun _ => le_refl _, hlow, hfin, hoff⟩
  rcases shortestEdge_ok ok hs with ⟨e, h1, h2, h3, h4, h5⟩ | ⟨h1, h2⟩
  · exact Or.inl ⟨e, h1, h2, h3, h4, h5⟩
  · refine Or.inr ⟨h1, fun a ha b hb => ?_⟩
    cases hc : cand a b with
    | none => rfl
    | some d => exact absurd (h2 a ha b hb d hc) (not_le.2 (hfin a b d hc))

/-! ### boxes -/

/-- The box of a node as a list of segments. -/
def segs {K : Type} (t : KDTree.Tree K) : List (Seg K) := t.box.map fun s => ⟨s.1, s.2⟩

theorem segMinDist_slack {a b : Seg ℝ} {c u v : ℝ} (hc : 0 ≤ c) (h1 : a.lower ≤ u + c)
    (h2 : u ≤ a.upper + c) (h3 : b.lower ≤ v + c) (h4 : v ≤ b.upper + c) :
    0 ≤ segMinDist a b ∧ segMinDist a b ≤ |u - v| + 2 * c := by
  have h5 := le_abs_self (u - v)
  have h6 := neg_abs_le (u - v)
  unfold segMinDist
  split_ifs with h7 h8
  · exact ⟨by linarith, by linarith⟩
  · exact ⟨by linarith, by linarith⟩
  · exact ⟨le_refl _, by linarith⟩

/-- The value `u` is in the segment up to `c`. -/
def Near (c : ℝ) (s : Seg ℝ) (u : ℝ) : Prop := s.lower ≤ u + c ∧ u ≤ s.upper + c

theorem boxSqDist_slack {c : ℝ} (hc : 0 ≤ c) {a : List (Seg ℝ)} {p : List ℝ} (ha : List.Forall₂ (Near c) a p) :
    ∀ {b : List (Seg ℝ)} {q : List ℝ}, List.Forall₂ (Near c) b q → a.length = b.length →
    ∃ s, boxSqDist a b = some s ∧
      s ≤ ((List.zipWith (fun u v => |u - v|) p q).map fun w => (w + 2 * c) * (w + 2 * c)).sum := by
  induction ha with
  | nil =>
    intro b q hb hl
    cases hb with
    | nil => exact ⟨0, rfl, by simp⟩
    | cons => simp at hl
  | cons h1 _ ih =>
    intro b q hb hl
    cases hb with
    | nil => simp at hl
    | cons h2 h3 =>
      obtain ⟨s, e, hs⟩ := ih h3 (by simpa using hl)
      refine ⟨_, by simp only [boxSqDist, e]; rfl, ?_⟩
      obtain ⟨h4, h5⟩ := segMinDist_slack hc h1.1 h1.2 h2.1 h2.2
      simp only [List.zipWith_cons_cons, List.map_cons, List.sum_cons]
      exact add_le_add (mul_self_le_mul_self h4 h5) hs

/-- Minkowski's inequality with a constant. -/
theorem sqrt_shift (w : List ℝ) {e : ℝ} (he : 0 ≤ e) :
    Real.sqrt ((w.map fun v => (v + e) * (v + e)).sum) ≤
      Real.sqrt ((w.map fun v => v * v).sum) + e * Real.sqrt w.length := by
  have key := C56_euclidean.triangle (w.map (· + e)) w (w.map fun _ => 0) (by simp) (by simp) _ _ _
    (euclidean_eq (by simp)) (euclidean_eq (by simp)) (euclidean_eq (by simp))
  have e1 : List.zipWith (fun a b : ℝ => (a - b) * (a - b)) (w.map (· + e)) (w.map fun _ => 0) =
      w.map fun v => (v + e) * (v + e) := by
    rw [List.zipWith_map, List.zipWith_self]; simp
  have e2 : List.zipWith (fun a b : ℝ => (a - b) * (a - b)) (w.map (· + e)) w = w.map fun _ => e * e := by
    rw [List.zipWith_map_left, List.zipWith_self]; simp
  have e3 : List.zipWith (fun a b : ℝ => (a - b) * (a - b)) w (w.map fun _ => 0) = w.map fun v => v * v := by
    rw [List.zipWith_map_right, List.zipWith_self]; simp
  rw [e1, e2, e3] at key
  have e4 : (w.map fun _ => e * e).sum = (w.length : ℝ) * (e * e) := by
    rw [List.map_const', List.sum_replicate, nsmul_eq_mul]
  rw [e4, mul_comm, Real.sqrt_mul (mul_self_nonneg e), Real.sqrt_mul_self he] at key
  linarith

theorem forall2_near {c : ℝ} {nf : Nat} {x : Nat → Nat → ℝ} {box : Box ℝ} {i : Nat}
    (hl : box.length = nf) (h : KDTree.InBox (fun a b => a ≤ b + c) x box i) :
    List.Forall₂ (Near c) (box.map fun s => (⟨s.1, s.2⟩ : Seg ℝ)) (row nf (x i)) := by
  rw [List.forall₂_iff_get]
  refine ⟨by simp [row, hl], ?_⟩
  intro f h1 h2
  simp only [List.length_map] at h1
  have := h f box[f] (List.getElem?_eq_getElem h1)
  simpa [row, Near] using this

/-- Two nodes are not further apart than their samples, up to the slack of the boxes. -/
theorem boxMinDist_slack {c : ℝ} (hc : 0 ≤ c) {nf : Nat} {xq xr : Nat → Nat → ℝ} {bq br : Box ℝ} {a b : Nat}
    (hq : bq.length = nf) (hr : br.length = nf)
    (ha : KDTree.InBox (fun a b => a ≤ b + c) xq bq a) (hb : KDTree.InBox (fun a b => a ≤ b + c) xr br b)
    {d : ℝ} (hd : euclidean (row nf (xq a)) (row nf (xr b)) = some d) :
    ∃ m, boxMinDist (bq.map fun s => ⟨s.1, s.2⟩) (br.map fun s => ⟨s.1, s.2⟩) = some m ∧
      m ≤ d + 2 * c * Real.sqrt nf := by
  obtain ⟨s, e, hs⟩ := boxSqDist_slack hc (forall2_near hq ha) (forall2_near hr hb) (by simp [hq, hr])
  refine ⟨Real.sqrt s, by simp [boxMinDist, e], ?_⟩
  rw [euclidean_eq (by simp [row])] at hd
  have h1 := sqrt_shift (List.zipWith (fun u v => |u - v|) (row nf (xq a)) (row nf (xr b)))
    (e := 2 * c) (by linarith)
  have e1 : (List.zipWith (fun u v => |u - v|) (row nf (xq a)) (row nf (xr b))).map (fun v => v * v) =
      List.zipWith (fun a b : ℝ => (a - b) * (a - b)) (row nf (xq a)) (row nf (xr b)) := by
    rw [List.map_zipWith]; simp
  have e2 : (List.zipWith (fun u v => |u - v|) (row nf (xq a)) (row nf (xr b))).length = nf := by
    simp [row]
  rw [e1, e2, Option.some.inj hd] at h1
  exact (Real.sqrt_le_sqrt hs).trans h1

/-! ### the search on floating data -/

section

variable {S : Type}

/-- Distances of floating data: reals and infinity. -/
noncomputable def realEnv (heap : Heap (WithTop ℝ)) (capacity : Nat)
    (offer : Nat → S → Buf (WithTop ℝ) → Nat → Option (S × Buf (WithTop ℝ))) :
    Env ℝ (WithTop ℝ) S where
  inf := ⊤
  zero := 0
  add := (· + ·)
  sub := fun a b => WithTop.map₂ (· - ·) a b
  minDist := fun s t => ((boxMinDist (segs s) (segs t)).map fun v : ℝ => (v : WithTop ℝ)).getD ⊤
  diam := fun t => (boxDiameter (segs t) : ℝ)
  heap := heap
  capacity := capacity
  offer := offer

theorem nodes_boxes {c : ℝ} {nf : Nat} {x : Nat → Nat → ℝ} {t s : KDTree.Tree ℝ} (hl : t.box.length = nf)
    (h : t.BoxesOk (fun a b => a ≤ b + c) x) (hs : s ∈ nodes t) :
    s.box.length = nf ∧ ∀ i ∈ s.indices, KDTree.InBox (fun a b => a ≤ b + c) x s.box i := by
  induction t with
  | leaf idx box =>
    simp only [nodes, List.mem_singleton] at hs
    subst hs
    exact ⟨hl, h⟩
  | node p a box l r ihl ihr =>
    simp only [nodes, List.mem_cons, List.mem_append] at hs
    obtain ⟨h1, h2, h3, h4, h5⟩ := h
    rcases hs with rfl | hs | hs
    · exact ⟨hl, h1⟩
    · exact ihl (h2.1.trans hl) h4 hs
    · exact ihr (h3.1.trans hl) h5 hs

theorem realEnv_ok {heap : Heap (WithTop ℝ)} {c : ℝ} (hc : 0 ≤ c) {nf : Nat} {xq xr : Nat → Nat → ℝ} {tq tr : KDTree.Tree ℝ}
    (hq : tq.box.length = nf) (hr : tr.box.length = nf)
    (hbq : tq.BoxesOk (fun a b => a ≤ b + c) xq) (hbr : tr.BoxesOk (fun a b => a ≤ b + c) xr)
    {dist : Nat → Nat → ℝ} (hd : ∀ a b, euclidean (row nf (xq a)) (row nf (xr b)) = some (dist a b))
    {cand : Nat → Nat → Option (WithTop ℝ)} (hcand : ∀ a b d, cand a b = some d → d = (dist a b : ℝ))
    {offer : Nat → S → Buf (WithTop ℝ) → Nat → Option (S × Buf (WithTop ℝ))} {Good : S → Prop}
    (hoff : ∀ q ∈ tq.indices, ∀ s, Good s → ∀ b b', ∀ i ∈ tr.indices,
      Buf.offer (cand q) b i = some b' → ∃ s', Good s' ∧ offer q s b i = some (s', b')) :
    Ok (realEnv heap 1 offer) tq tr cand (fun d => d + ((2 * c * Real.sqrt nf : ℝ) : WithTop ℝ)) Good where
  cap := rfl
  inf := fun _ => le_top
  add := by
    intro t _ d
    have : (0 : WithTop ℝ) ≤ ((boxDiameter (segs t) : ℝ) : WithTop ℝ) := by
      exact_mod_cast Real.sqrt_nonneg _
    exact le_add_of_nonneg_right this
  rel := by
    intro d
    refine le_add_of_nonneg_right ?_
    have : 0 ≤ 2 * c * Real.sqrt nf := by positivity
    exact_mod_cast this
  low := by
    intro sq hsq sr hsr a ha b hb d h
    obtain ⟨h1, h2⟩ := nodes_boxes hq hbq hsq
    obtain ⟨h3, h4⟩ := nodes_boxes hr hbr hsr
    obtain ⟨m, e, hm⟩ := boxMinDist_slack hc h1 h3 (h2 a ha) (h4 b hb) (hd a b)
    rw [hcand a b d h]
    simp only [realEnv, segs, e, Option.map_some, Option.getD_some]
    exact_mod_cast hm
  fin := by
    intro a b d h
    rw [hcand a b d h]
    exact WithTop.coe_lt_top _
  off := hoff

end

/-- `StaticBuffer` without a filter. -/
def staticOffer {D : Type} [LinearOrder D] (cand : Nat → Nat → Option D) (q : Nat) (_ : Unit) (b : Buf D)
    (i : Nat) : Option (Unit × Buf D) := (Buf.offer (cand q) b i).map fun b => ((), b)

/-- Distances of all pairs. -/
def allPairs (dist : Nat → Nat → ℝ) (a b : Nat) : Option (WithTop ℝ) := some (dist a b : ℝ)

/-- **C65**, plain buffers, `k = 1`: with trees built by `make` from any two non-empty sets of samples,
with any policies and sizes, and with comparisons of values up to `eps`, the search returns a pair of a
query and a reference with its distance, and no pair is closer by more than `4 * eps * sqrt n_features`. -/
theorem C65_float (heap : Heap (WithTop ℝ)) (eps : ℝ) (heps : 0 ≤ eps) (nf : Nat) (xq xr : Nat → Nat → ℝ) (dist : Nat → Nat → ℝ)
    (hd : ∀ a b, euclidean (row nf (xq a)) (row nf (xr b)) = some (dist a b))
    (pq pr : List Nat → Nat → Box ℝ → Nat) (hpq : ∀ idx d box, pq idx d box < nf)
    (hpr : ∀ idx d box, pr idx d box < nf) (bucketq depthq bucketr depthr : Nat) (vmax vlowest : ℝ)
    (idxq idxr : List Nat) (hq : idxq ≠ []) (hr : idxr ≠ []) :
    ∃ iq tq ir tr a b,
      make (eqEps eps) xq pq bucketq depthq nf vmax vlowest idxq = some (iq, tq) ∧
      make (eqEps eps) xr pr bucketr depthr nf vmax vlowest idxr = some (ir, tr) ∧
      shortestEdge (realEnv heap 1 (staticOffer (allPairs dist))) () tq tr = some (a, b, ((dist a b : ℝ) : WithTop ℝ)) ∧
      a ∈ idxq ∧ b ∈ idxr ∧ ∀ a' ∈ idxq, ∀ b' ∈ idxr, dist a b ≤ dist a' b' + 4 * eps * Real.sqrt nf := by
  obtain ⟨iq, tq, e1, hp1, hi1, hb1, _, hbox1, _⟩ :=
    make_float eps heps xq pq bucketq depthq nf hpq vmax vlowest idxq
  obtain ⟨ir, tr, e2, hp2, hi2, hb2, _, hbox2, _⟩ :=
    make_float eps heps xr pr bucketr depthr nf hpr vmax vlowest idxr
  have ok := realEnv_ok (heap := heap) (S := Unit) (c := 2 * eps) (by linarith) (by rw [hb1]; exact tightBound_length ..)
    (by rw [hb2]; exact tightBound_length ..) hbox1 hbox2 hd (cand := allPairs dist)
    (fun a b d h => (Option.some.inj h).symm) (offer := staticOffer (allPairs dist)) (Good := fun _ => True)
    (fun q _ s _ b b' i _ h => ⟨(), trivial, by simp only [staticOffer, h, Option.map_some]⟩)
  have mq : ∀ i, i ∈ tq.indices ↔ i ∈ idxq := fun i => by rw [hi1]; exact hp1.mem_iff
  have mr : ∀ i, i ∈ tr.indices ↔ i ∈ idxr := fun i => by rw [hi2]; exact hp2.mem_iff
  rcases shortestEdge_ok ok (s := ()) trivial with ⟨⟨a, b, d⟩, h1, h2, h3, h4, h5⟩ | ⟨_, h2⟩
  · have : d = ((dist a b : ℝ) : WithTop ℝ) := (Option.some.inj h4).symm
    subst this
    refine ⟨iq, tq, ir, tr, a, b, e1, e2, h1, (mq a).1 h2, (mr b).1 h3, fun a' ha' b' hb' => ?_⟩
    have := h5 a' ((mq a').2 ha') b' ((mr b').2 hb') _ rfl
    dsimp only at this
    have h6 : dist a b ≤ dist a' b' + 2 * (2 * eps) * Real.sqrt nf := by exact_mod_cast this
    linarith
  · exfalso
    obtain ⟨a, ha⟩ := List.exists_mem_of_ne_nil _ hq
    obtain ⟨b, hb⟩ := List.exists_mem_of_ne_nil _ hr
    have := h2 a ((mq a).2 ha) b ((mr b).2 hb) _ rfl
    exact absurd this (not_le.2 (WithTop.coe_lt_top (dist a b + 2 * (2 * eps) * Real.sqrt nf)))

/-- **C65**, the same with exact comparisons (`eps = 0`): the minimum over all pairs. -/
theorem C65_exact (heap : Heap (WithTop ℝ)) (nf : Nat) (xq xr : Nat → Nat → ℝ) (dist : Nat → Nat → ℝ)
    (hd : ∀ a b, euclidean (row nf (xq a)) (row nf (xr b)) = some (dist a b))
    (pq pr : List Nat → Nat → Box ℝ → Nat) (hpq : ∀ idx d box, pq idx d box < nf)
    (hpr : ∀ idx d box, pr idx d box < nf) (bucketq depthq bucketr depthr : Nat) (vmax vlowest : ℝ)
    (idxq idxr : List Nat) (hq : idxq ≠ []) (hr : idxr ≠ []) :
    ∃ iq tq ir tr e,
      make (eqEps 0) xq pq bucketq depthq nf vmax vlowest idxq = some (iq, tq) ∧
      make (eqEps 0) xr pr bucketr depthr nf vmax vlowest idxr = some (ir, tr) ∧
      shortestEdge (realEnv heap 1 (staticOffer (allPairs dist))) () tq tr = some e ∧
      IsShortest (allPairs dist) idxq idxr e := by
  obtain ⟨iq, tq, ir, tr, a, b, e1, e2, e3, ha, hb, h⟩ :=
    C65_float heap 0 le_rfl nf xq xr dist hd pq pr hpq hpr bucketq depthq bucketr depthr vmax vlowest idxq idxr hq hr
  refine ⟨iq, tq, ir, tr, _, e1, e2, e3, ha, hb, rfl, fun a' ha' b' hb' d hd' => ?_⟩
  rw [← Option.some.inj hd']
  have := h a' ha' b' hb'
  simp only [mul_zero, zero_mul, add_zero] at this
  dsimp only
  exact_mod_cast this

/-- `WithUnionFind` for the query `q`; all queries share the union-find structure and the
representative `rep`. -/
def ufOffer' {D : Type} [LinearOrder D] (cand : Nat → Nat → Option D) (rep : Nat) (q : Nat) (s : UF.State)
    (b : Buf D) (i : Nat) : Option (UF.State × Buf D) := ufOffer (cand q) rep (s, b) i

/-- **C65**, union-find buffers, `k = 1`: after any history of merges the search returns a pair whose
reference is not connected with `rep`, no such pair is closer by more than the slack, and when all
references are connected with `rep` the result is undefined. -/
theorem C65_union_find (heap : Heap (WithTop ℝ)) (eps : ℝ) (heps : 0 ≤ eps) (nf : Nat) (xq xr : Nat → Nat → ℝ) (dist : Nat → Nat → ℝ)
    (hd : ∀ a b, euclidean (row nf (xq a)) (row nf (xr b)) = some (dist a b))
    (pq pr : List Nat → Nat → Box ℝ → Nat) (hpq : ∀ idx d box, pq idx d box < nf)
    (hpr : ∀ idx d box, pr idx d box < nf) (bucketq depthq bucketr depthr : Nat) (vmax vlowest : ℝ)
    (idxq idxr : List Nat) (hq : idxq ≠ [])
    (n : Nat) (ops : List UF.Op) (hops : ∀ op ∈ ops, op.Valid n) (rep : Nat) (hrep : rep < n)
    (hr : ∀ i ∈ idxr, i < n) :
    ∃ s iq tq ir tr, UF.run (UF.init n) ops = some s ∧
      make (eqEps eps) xq pq bucketq depthq nf vmax vlowest idxq = some (iq, tq) ∧
      make (eqEps eps) xr pr bucketr depthr nf vmax vlowest idxr = some (ir, tr) ∧
      ((∃ a b, shortestEdge (realEnv heap 1 (ufOffer' (allPairs dist) rep)) s tq tr =
            some (a, b, ((dist a b : ℝ) : WithTop ℝ)) ∧
          a ∈ idxq ∧ b ∈ idxr ∧ ¬ UF.Together ops rep b ∧
          ∀ a' ∈ idxq, ∀ b' ∈ idxr, ¬ UF.Together ops rep b' →
            dist a b ≤ dist a' b' + 4 * eps * Real.sqrt nf) ∨
        (shortestEdge (realEnv heap 1 (ufOffer' (allPairs dist) rep)) s tq tr = none ∧
          ∀ b ∈ idxr, UF.Together ops rep b)) := by
  obtain ⟨s, r, es, hs, htog⟩ := UF.run_init_spec n ops hops
  obtain ⟨iq, tq, e1, hp1, hi1, hb1, _, hbox1, _⟩ :=
    make_float eps heps xq pq bucketq depthq nf hpq vmax vlowest idxq
  obtain ⟨ir, tr, e2, hp2, hi2, hb2, _, hbox2, _⟩ :=
    make_float eps heps xr pr bucketr depthr nf hpr vmax vlowest idxr
  have mq : ∀ i, i ∈ tq.indices ↔ i ∈ idxq := fun i => by rw [hi1]; exact hp1.mem_iff
  have mr : ∀ i, i ∈ tr.indices ↔ i ∈ idxr := fun i => by rw [hi2]; exact hp2.mem_iff
  have hoff : ∀ q ∈ tq.indices, ∀ u : UF.State, UF.SInv n u r → ∀ b b', ∀ i ∈ tr.indices,
      Buf.offer (fun i => if r rep = r i then none else allPairs dist q i) b i = some b' →
      ∃ u', UF.SInv n u' r ∧ ufOffer' (allPairs dist) rep q u b i = some (u', b') := by
    intro q _ u hu b b' i hi h
    obtain ⟨⟨u', b''⟩, h1, h2, h3⟩ := (sim_uf (K := ℝ) (fun _ _ => 0) (fun _ => 0) (fun _ _ => 0)
      (allPairs dist q) n rep r hrep).offer (u, b) i b' hu (hr i ((mr i).1 hi)) h
    simp only at h2
    subst h2
    exact ⟨u', h3, h1⟩
  have ok := realEnv_ok (heap := heap) (S := UF.State) (c := 2 * eps) (by linarith) (by rw [hb1]; exact tightBound_length ..)
    (by rw [hb2]; exact tightBound_length ..) hbox1 hbox2 hd
    (cand := fun q i => if r rep = r i then none else allPairs dist q i)
    (by
      intro a b d h
      split at h
      · cases h
      · exact (Option.some.inj h).symm)
    (offer := ufOffer' (allPairs dist) rep) (Good := fun u => UF.SInv n u r) hoff
  refine ⟨s, iq, tq, ir, tr, es, e1, e2, ?_⟩
  rcases shortestEdge_ok ok (s := s) hs with ⟨⟨a, b, d⟩, h1, h2, h3, h4, h5⟩ | ⟨h1, h2⟩
  · left
    have hne : ¬ r rep = r b := by
      intro h
      simp [h] at h4
    have : d = ((dist a b : ℝ) : WithTop ℝ) := by
      simp only [hne, if_false] at h4
      exact (Option.some.inj h4).symm
    subst this
    refine ⟨a, b, h1, (mq a).1 h2, (mr b).1 h3, by rw [← htog]; exact hne, fun a' ha' b' hb' ht => ?_⟩
    rw [← htog] at ht
    have := h5 a' ((mq a').2 ha') b' ((mr b').2 hb') _ (by rw [if_neg ht]; rfl)
    dsimp only at this
    have h6 : dist a b ≤ dist a' b' + 2 * (2 * eps) * Real.sqrt nf := by exact_mod_cast this
    linarith
  · right
    refine ⟨h1, fun b hb => ?_⟩
    rw [← htog]
    by_contra hne
    obtain ⟨a, ha⟩ := List.exists_mem_of_ne_nil _ hq
    have := h2 a ((mq a).2 ha) b ((mr b).2 hb) _ (by rw [if_neg hne]; rfl)
    exact absurd this (not_le.2 (WithTop.coe_lt_top (dist a b + 2 * (2 * eps) * Real.sqrt nf)))


/-! ### more or fewer neighbours per query, integral data -/

section

variable {K D S : Type} [LinearOrder K] [LinearOrder D]

/-- **C65**, a distance type whose "infinity" is not above the distances (`common::infinity` of an
integral type is 0): as soon as the two sets are apart the roots are pruned and the result is undefined. -/
theorem C65_roots_pruned (env : Env K D S) (s : S) (tq tr : KDTree.Tree K)
    (hd : ¬ env.inf < env.sub env.inf (env.diam tq)) (h : env.inf < env.minDist tq tr) :
    shortestEdge env s tq tr = none := by
  obtain ⟨f, hf⟩ : ∃ f, Search.nodeCount tq + Search.nodeCount tr = f + 1 := by
    have : 1 ≤ Search.nodeCount tq := by cases tq <;> simp [Search.nodeCount]
    exact ⟨Search.nodeCount tq + Search.nodeCount tr - 1, by omega⟩
  have hl : ∀ l : List Nat, ∀ m : Limits D, m.closest = env.inf →
      (l.foldl (limitStep env fun _ => none) m).closest = env.inf := by
    intro l
    induction l with
    | nil => exact fun m hm => hm
    | cons i l ih => exact fun m hm => ih _ hm
  have hb : ∀ v, (furthestBound env { start (D := D) s with visited := v } [] tq).2 = env.inf ∧
      (furthestBound env { start (D := D) s with visited := v } [] tq).1.pq = [] := by
    intro v
    have h0 : (updateBoundsLimits env { start (D := D) s with visited := v } [] tq).closest = env.inf :=
      hl tq.own (limits0 env) rfl
    refine ⟨?_, rfl⟩
    cases tq with
    | leaf idx box =>
      simp only [furthestBound, adjustedBound]
      rw [h0, if_neg hd]
    | node p a box l r =>
      simp only [furthestBound, adjustedBound]
      have : (childStep env (childStep env
          ((start s).limits, updateBoundsLimits env { start (D := D) s with visited := v } [] (.node p a box l r))
          ([] ++ [false])) ([] ++ [true])).2.closest = env.inf := by
        exact h0
      rw [this, if_neg hd]
  unfold shortestEdge dualSearch
  rw [hf]
  obtain ⟨h1, h2⟩ := hb [([], [])]
  have e : pairCost env { start (D := D) s with visited := [([], [])] } [] tq tr none false =
      ((furthestBound env { start (D := D) s with visited := [([], [])] } [] tq).1, none) := by
    simp only [pairCost, Bool.false_eq_true, if_false, cost, updateCost]
    rw [h1, if_pos h]
  have e2 : traverse env (f + 1) (start s) [] tq [] tr none false =
      some (furthestBound env { start (D := D) s with visited := [([], [])] } [] tq).1 := by
    unfold traverse
    rw [if_neg (by simp [start])]
    simp only [show (start (D := D) s).visited = [] from rfl]
    rw [e]
  rw [e2]
  simp [h2]

/-- Nothing in the queue, and no buffer has room for a neighbour. -/
def NoRoom (st : State D S) : Prop :=
  st.pq = [] ∧ ∀ q b, st.bufs q = some b → b.maxCapacity = 0

theorem updateQueue_noRoom (env : Env K D S) (w : Queue D) (hw : w.1 = []) (q : Nat) (b : Buf D)
    (hb : b.maxCapacity = 0) : (updateQueue env w q b).1 = [] := by
  have hrep : ∀ (l : List (Nat × D)) (w : Queue D), w.1 = [] →
      (l.foldl (replaceStep env 0 q) w).1 = [] := by
    intro l
    induction l with
    | nil => exact fun w hw => hw
    | cons c l ih =>
      intro w hw
      rw [List.foldl_cons]
      refine ih _ ?_
      obtain ⟨p, t⟩ := w
      simp only at hw
      subst hw
      unfold replaceStep insertNew
      split_ifs <;> simp [Heap.push_nil, Heap.pop_one, popTop]
  have hsh : shrink env 0 w.1.length w = w := by
    rw [hw]; rfl
  unfold updateQueue
  rw [hb, hsh]
  simp only [hw, List.length_nil, Nat.zero_add, Nat.le_zero, List.length_eq_zero_iff]
  have : (if b.indices = [] then (List.zip b.indices b.distances).foldl
      (fun w c => (insertNew env (q, c.1, c.2) w).1) w else w) = w := by
    split_ifs with h
    · rw [h]; rfl
    · rfl
  rw [this]
  split_ifs
  · exact hrep _ _ hw
  · exact hw

theorem traverse_noRoom (env : Env K D S) (hcap : env.capacity = 0)
    (hoff : ∀ q s b i s' b', env.offer q s b i = some (s', b') → b'.maxCapacity = b.maxCapacity) :
    ∀ (fuel : Nat) (st : State D S) (p : Path) (tq : KDTree.Tree K) (p' : Path) (tr : KDTree.Tree K)
      (c : Option D) (by' : Bool) (st' : State D S), NoRoom st →
      traverse env fuel st p tq p' tr c by' = some st' → NoRoom st' := by
  have hfb : ∀ (st : State D S) p (tq : KDTree.Tree K), NoRoom st → NoRoom (furthestBound env st p tq).1 :=
    fun st p tq h => ⟨h.1, h.2⟩
  have hcost : ∀ (st : State D S) p (tq tr : KDTree.Tree K), NoRoom st → NoRoom (cost env st p tq tr).1 :=
    fun st p tq tr h => hfb st p tq h
  have hpc : ∀ (st : State D S) p (tq tr : KDTree.Tree K) c by', NoRoom st →
      NoRoom (pairCost env st p tq tr c by').1 := by
    intro st p tq tr c by' h
    unfold pairCost
    split_ifs
    · exact h
    · cases c with
      | none => exact hcost st p tq tr h
      | some c => exact hfb st p tq h
  have hsb : ∀ q l s b s' b', searchBuffer env q l s b = some (s', b') → b'.maxCapacity = b.maxCapacity := by
    intro q l
    induction l with
    | nil =>
      intro s b s' b' h
      simp only [searchBuffer, Option.some.injEq, Prod.mk.injEq] at h
      rw [h.2]
    | cons i l ih =>
      intro s b s' b' h
      simp only [searchBuffer, Option.bind_eq_bind, Option.bind_eq_some_iff, Prod.exists] at h
      obtain ⟨s1, b1, h1, h2⟩ := h
      rw [ih _ _ _ _ h2, hoff _ _ _ _ _ _ h1]
  have hsq : ∀ (st : State D S) refs q st', NoRoom st → searchQuery env st refs q = some st' → NoRoom st' := by
    intro st refs q st' h e
    simp only [searchQuery, Option.bind_eq_bind, Option.bind_eq_some_iff, Prod.exists] at e
    obtain ⟨s1, b1, h1, h2⟩ := e
    have hb1 : b1.maxCapacity = 0 := by
      rw [hsb _ _ _ _ _ _ h1]
      cases hq : st.bufs q with
      | none => simp [mk, hcap]
      | some b => simpa using h.2 q b hq
    have hu := updateQueue_noRoom env (st.pq, st.inPq) h.1 q b1 hb1
    simp only [Option.some.injEq] at h2
    subst h2
    refine ⟨hu, fun r b hr => ?_⟩
    simp only at hr
    split_ifs at hr
    · injection hr with hr
      rw [← hr]; exact hb1
    · exact h.2 r b hr
  have hsqs : ∀ (queries : List Nat) (st : State D S) refs st', NoRoom st →
      searchQueries env st refs queries = some st' → NoRoom st' := by
    intro queries
    induction queries with
    | nil =>
      intro st refs st' h e
      simp only [searchQueries, List.foldlM_nil, Option.pure_def, Option.some.injEq] at e
      exact e ▸ h
    | cons q l ih =>
      intro st refs st' h e
      simp only [searchQueries, List.foldlM_cons, Option.bind_eq_bind, Option.bind_eq_some_iff] at e
      obtain ⟨st1, e1, e2⟩ := e
      exact ih st1 refs st' (hsq _ _ _ _ h e1) e2
  intro fuel
  induction fuel with
  | zero => intro st p tq p' tr c by' st' _ e; cases e
  | succ fuel ih =>
    intro st p tq p' tr c by' st' h e
    unfold traverse at e
    split_ifs at e with hv
    · injection e with e; exact e ▸ h
    · have hp := hpc { st with visited := (p, p') :: st.visited } p tq tr c by' ⟨h.1, h.2⟩
      revert e hp
      generalize pairCost env { st with visited := (p, p') :: st.visited } p tq tr c by' = r
      intro e hp
      obtain ⟨st1, o⟩ := r
      cases o with
      | none => injection e with e; exact e ▸ hp
      | some _ =>
        simp only [Option.bind_eq_bind, Option.bind_eq_some_iff] at e
        obtain ⟨st2, e2, st3, e3, e4⟩ := e
        have h2 := hsqs _ _ _ _ hp e2
        have h3 : NoRoom st3 := by
          unfold queryChildren at e3
          cases tq with
          | leaf => injection e3 with e3; exact e3 ▸ h2
          | node _ _ _ l r =>
            simp only [Option.bind_eq_bind, Option.bind_eq_some_iff] at e3
            obtain ⟨st4, e5, e6⟩ := e3
            exact ih _ _ _ _ _ _ _ _ (ih _ _ _ _ _ _ _ _ h2 e5) e6
        unfold refChildren at e4
        cases tr with
        | leaf => injection e4 with e4; exact e4 ▸ h3
        | node _ _ _ l r =>
          simp only at e4
          have h5 := hcost (cost env st3 p tq l).1 p tq r (hcost st3 p tq l h3)
          revert e4 h5
          generalize childQueue (K := K) (D := D) _ _ _ _ = Q
          generalize (cost env (cost env st3 p tq l).1 p tq r).1 = st5
          intro e4 h5
          cases Q with
          | nil => injection e4 with e4; exact e4 ▸ h5
          | cons c Q =>
            obtain ⟨d, t, c⟩ := c
            simp only [processQueue, Option.bind_eq_bind, Option.bind_eq_some_iff] at e4
            obtain ⟨st6, e6, e7⟩ := e4
            have h6 := ih _ _ _ _ _ _ _ _ h5 e6
            clear e6 h5
            induction Q generalizing st6 with
            | nil =>
              simp only [List.foldlM_nil, Option.pure_def, Option.some.injEq] at e7
              exact e7 ▸ h6
            | cons c' Q ihq =>
              simp only [List.foldlM_cons, Option.bind_eq_bind, Option.bind_eq_some_iff] at e7
              obtain ⟨st8, e8, e9⟩ := e7
              exact ihq st8 e9 (ih _ _ _ _ _ _ _ _ h6 e8)

/-- **C65**, the default capacity (`common::infinity<IndexType>()`, which is 0) : whatever the trees and
the distances, the queue of edges stays empty and the result is undefined. -/
theorem C65_default_capacity (env : Env K D S) (hcap : env.capacity = 0)
    (hoff : ∀ q s b i s' b', env.offer q s b i = some (s', b') → b'.maxCapacity = b.maxCapacity)
    (s : S) (tq tr : KDTree.Tree K) : shortestEdge env s tq tr = none := by
  unfold shortestEdge dualSearch
  cases e : traverse env (Search.nodeCount tq + Search.nodeCount tr) (start s) [] tq [] tr none false with
  | none => rfl
  | some st =>
    have h := traverse_noRoom env hcap hoff _ _ _ _ _ _ _ _ _
      (show NoRoom (start (D := D) s) from ⟨rfl, fun q b h => by cases h⟩) e
    simp [h.1]

end

/-! ### examples -/

/-- One feature of integers with the maximum standing for infinity. -/
def lineEnv (inf : ℤ) (capacity : Nat) (cand : Nat → Nat → Option ℤ) : Env ℤ ℤ Unit where
  inf := inf
  zero := 0
  add := (· + ·)
  sub := (· - ·)
  minDist := fun s t => (List.zipWith segMinDist (segs s) (segs t)).sum
  diam := fun t => ((segs t).map fun s => s.upper - s.lower).sum
  heap := listHeap
  capacity := capacity
  offer := staticOffer cand

/-- Eight samples with one feature. -/
def lineX (i _ : Nat) : ℤ := [0, 3, 5, 9, 14, 20, 22, 27].getD i 0

/-- All pairs. -/
def lineDist (a b : Nat) : Option ℤ := some |lineX a 0 - lineX b 0|

/-- The tree of some samples, with leaves of one sample. -/
def lineTree (idx : List Nat) : Option (KDTree.Tree ℤ) :=
  (make eqExact lineX (fun _ _ _ => 0) 1 10 1 1000 (-1000) idx).map Prod.snd

/-- The search between two sets of the samples. -/
def lineEdge (inf : ℤ) (capacity : Nat) (cand : Nat → Nat → Option ℤ) (qs rs : List Nat) :
    Option (Edge ℤ) := do
  let tq ← lineTree qs
  let tr ← lineTree rs
  shortestEdge (lineEnv inf capacity cand) () tq tr

instance (cand : Nat → Nat → Option ℤ) (qs rs : List Nat) (e : Nat × Nat × ℤ) :
    Decidable (IsShortest cand qs rs e) := by
  have : ∀ a b, Decidable (∀ d, cand a b = some d → e.2.2 ≤ d) := fun a b =>
    match h : cand a b with
    | none => .isTrue (by intro d hd; cases hd)
    | some c => if hc : e.2.2 ≤ c then .isTrue (by intro d hd; cases hd; exact hc)
        else .isFalse (fun hd => hc (hd c rfl))
  unfold IsShortest
  infer_instance

/-- Three queries, five references: the closest pair; and with a filter the closest among the pairs it
leaves. -/
example : lineEdge 1000 1 lineDist [0, 3, 7] [1, 4, 5, 2, 6] = some (0, 1, 3) ∧
    IsShortest lineDist [0, 3, 7] [1, 4, 5, 2, 6] (0, 1, 3) := by decide +kernel

example : lineEdge 1000 1 (fun a b => if b < 4 then none else lineDist a b) [0, 3, 7] [1, 4, 5, 2, 6] =
    some (3, 4, 5) := by decide +kernel

example : lineEdge 1000 1 (fun _ _ => none) [0, 3, 7] [1, 4, 5, 2, 6] = none := by decide +kernel

/-- **C65** is about one neighbour per query. With two, the result is neither always the shortest edge
nor always the second shortest. -/
theorem C65_two_neighbours_counterexample :
    (lineEdge 1000 2 lineDist [0] [1, 4, 5] = some (0, 4, 14) ∧ lineDist 0 1 = some 3) ∧
    (lineEdge 1000 2 lineDist [3] [1, 4, 5] = some (3, 4, 5) ∧ lineDist 3 1 = some 6 ∧
      lineDist 3 5 = some 11) := by decide +kernel

/-- **C65** fails for integral data, whose infinity is 0: two sets which are apart. -/
theorem C65_integral_counterexample :
    lineEdge 0 1 lineDist [0, 1] [4, 5] = none ∧ lineEdge 1000 1 lineDist [0, 1] [4, 5] = some (1, 4, 11) := by
  decide +kernel

/-- **C65**, any number of neighbours: whenever there is an admissible pair, the edge returned is one, with
its own distance; and nothing is returned otherwise. -/
theorem C65_admissible {K D S : Type} [LinearOrder K] [LinearOrder D] (env : Env K D S)
    (tq tr : KDTree.Tree K) (cand : Nat → Nat → Option D) (Good : S → Prop) (s : S) (hs : Good s)
    (hk : 1 ≤ env.capacity) (hk2 : env.capacity < 2 ^ 64) (hinf : ∀ d, d ≤ env.inf)
    (hoff : ∀ q ∈ tq.indices, ∀ s, Good s → ∀ b b', ∀ i ∈ tr.indices,
      Buf.offer (cand q) b i = some b' → ∃ s', Good s' ∧ env.offer q s b i = some (s', b')) :
    (∃ e, shortestEdge env s tq tr = some e ∧ e.1 ∈ tq.indices ∧ e.2.1 ∈ tr.indices ∧
      cand e.1 e.2.1 = some e.2.2) ∨
    (shortestEdge env s tq tr = none ∧ ∀ a ∈ tq.indices, ∀ b ∈ tr.indices, cand a b = none) := by
  rcases dualSearch_many ⟨hk, hk2, hinf, hoff⟩ hs with ⟨s', e, h1, _, h2, h3, h4⟩ | ⟨h1, h2⟩
  · exact .inl ⟨e, by simp [shortestEdge, h1], h2, h3, h4⟩
  · exact .inr ⟨by simp [shortestEdge, h1], h2⟩

/-- A case of `C65_admissible`: three neighbours, any trees, real distances. -/
example (tq tr : KDTree.Tree ℝ) (dist : Nat → Nat → ℝ) :=
  C65_admissible (realEnv listHeap 3 (staticOffer (allPairs dist))) tq tr (allPairs dist) (fun _ => True) () trivial
    (by simp [realEnv]) (by simp [realEnv]) (fun _ => le_top)
    (fun q _ s _ b b' i _ h => ⟨(), trivial, by simp only [realEnv, staticOffer, h, Option.map_some]⟩)

/-- The hypotheses of `C65_roots_pruned` and `C65_default_capacity` hold for these sets. -/
example : ∃ tq tr, lineTree [0, 1] = some tq ∧ lineTree [4, 5] = some tr ∧
    ¬ (lineEnv 0 1 lineDist).inf < (lineEnv 0 1 lineDist).sub (lineEnv 0 1 lineDist).inf
      ((lineEnv 0 1 lineDist).diam tq) ∧
    (lineEnv 0 1 lineDist).inf < (lineEnv 0 1 lineDist).minDist tq tr := by
  refine ⟨_, _, rfl, rfl, ?_, ?_⟩ <;> decide +kernel

example : lineEdge 1000 0 lineDist [0, 3, 7] [1, 4, 5, 2, 6] = none := by decide +kernel

/-- A case of `C65_float`: two queries and three references in the plane. -/
example := C65_float listHeap (1 / 8) (by norm_num) 2 (fun i f => (i : ℝ) + f) (fun i f => 3 * (i : ℝ) - f)
  (fun a b => Real.sqrt (List.zipWith (fun u v => (u - v) * (u - v)) (row 2 fun f => (a : ℝ) + f)
    (row 2 fun f => 3 * (b : ℝ) - f)).sum)
  (fun a b => euclidean_eq (by simp [row])) (fun _ d _ => d % 2) (fun _ d _ => d % 2)
  (fun _ d _ => Nat.mod_lt _ (by norm_num)) (fun _ d _ => Nat.mod_lt _ (by norm_num)) 1 10 1 10 1000 (-1000)
  [0, 1] [5, 2, 3] (by simp) (by simp)

end Verif.DualTree
