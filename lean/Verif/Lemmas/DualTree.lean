import Verif.Model.DualTree
import Verif.Spec.DualTree
import Mathlib.Tactic.Common
import Mathlib.Tactic.NormNum

/-
Lemmas on the dual-tree search with one neighbour per query.
-/

namespace Verif.DualTree

open Verif.KDTree Verif.Buffer Spec

set_option linter.unusedSectionVars false

variable {K D S : Type} [LinearOrder K] [LinearOrder D]

/-! ### Nodes -/

/-- The node at a path. -/
def nodeAt : Tree K → Path → Option (Tree K)
  | t, [] => some t
  | .leaf _ _, _ :: _ => none
  | .node _ _ _ l r, b :: p => if b then nodeAt r p else nodeAt l p

theorem nodeAt_nil (t : Tree K) : nodeAt t [] = some t := by cases t <;> rfl

theorem nodeAt_append (t : Tree K) (p : Path) (b : Bool) :
    nodeAt t (p ++ [b]) = (nodeAt t p).bind fun s => nodeAt s [b] := by
  induction p generalizing t with
  | nil => simp [nodeAt]
  | cons c p ih =>
    cases t with
    | leaf => simp [nodeAt]
    | node _ _ _ l r => cases c <;> simp [nodeAt, ih]

theorem mem_nodes_self (t : Tree K) : t ∈ nodes t := by
  cases t <;> simp [nodes]

theorem nodeAt_mem {t s : Tree K} {p : Path} (h : nodeAt t p = some s) : s ∈ nodes t := by
  induction p generalizing t with
  | nil =>
    simp only [nodeAt, Option.some.injEq] at h
    subst h
    exact mem_nodes_self _
  | cons b p ih =>
    cases t with
    | leaf => simp [nodeAt] at h
    | node _ _ _ l r =>
      cases b
      · simp only [nodeAt, Bool.false_eq_true, if_false] at h
        simp [nodes, ih h]
      · simp only [nodeAt, if_true] at h
        simp [nodes, ih h]

theorem nodes_indices {t s : Tree K} (h : s ∈ nodes t) : ∀ i ∈ s.indices, i ∈ t.indices := by
  induction t with
  | leaf => simp only [nodes, List.mem_singleton] at h; subst h; exact fun i hi => hi
  | node p a box l r ihl ihr =>
    simp only [nodes, List.mem_cons, List.mem_append] at h
    rcases h with rfl | h | h
    · exact fun i hi => hi
    · intro i hi; simp [Tree.indices, ihl h i hi]
    · intro i hi; simp [Tree.indices, ihr h i hi]

theorem own_indices (t : Tree K) : ∀ i ∈ t.own, i ∈ t.indices := by
  cases t <;> simp [Tree.own, Tree.indices]

/-! ### Buffers of capacity one -/

/-- A buffer of capacity one. -/
def buf1 (inf : D) : Option (Nat × D) → Buf D
  | none => mk inf 1
  | some (i, d) => ⟨[i], [d], i, d, 0, d, 1⟩

theorem rem_one : (1 + sizeMod - 0) % sizeMod = 1 := by
  rw [Nat.sub_zero, Nat.add_mod_right]
  exact Nat.mod_eq_of_lt (by norm_num [sizeMod])

theorem rem_zero : (1 + sizeMod - 1) % sizeMod = 0 := by
  rw [Nat.add_sub_cancel_left, Nat.mod_self]

theorem remaining_none (inf : D) : (buf1 inf none).remaining = 1 := rem_one

theorem remaining_some (inf : D) (w : Nat × D) : (buf1 inf (some w)).remaining = 0 := rem_zero

theorem update_buf1_none (inf : D) (i : Nat) (d : D) :
    (buf1 inf none).update i d = some (buf1 inf (some (i, d))) := rfl

theorem update_buf1_some (inf : D) (j i : Nat) (e d : D) :
    (buf1 inf (some (j, e))).update i d = some (buf1 inf (some (if d < e then (i, d) else (j, e)))) := by
  have hr := remaining_some inf (j, e)
  have hl : ¬ (buf1 inf (some (j, e))).indices.length = 0 := by simp [buf1]
  unfold Buf.update
  rw [if_neg hl, if_neg (by rw [hr]; simp)]
  by_cases h : d < e
  · simp [h, assign, getMaxIndexValuePair, maxElementLoop, buf1]
  · simp [h, buf1]

/-- The result of offering a sample to a buffer of capacity one. -/
def take1 (c : Option D) (i : Nat) : Option (Nat × D) → Option (Nat × D)
  | none => c.map fun d => (i, d)
  | some (j, e) =>
    match c with
    | none => some (j, e)
    | some d => some (if d < e then (i, d) else (j, e))

theorem offer_buf1 (inf : D) (cand : Nat → Option D) (o : Option (Nat × D)) (i : Nat) :
    Buf.offer cand (buf1 inf o) i = some (buf1 inf (take1 (cand i) i o)) := by
  unfold Buf.offer
  cases hc : cand i with
  | none => cases o <;> rfl
  | some d =>
    cases o with
    | none => exact update_buf1_none inf i d
    | some w => exact update_buf1_some inf w.1 i w.2 d

/-- What a buffer of capacity one holds: nothing, or a pair of `cand` with a sample of `rs`. -/
def Holds (cand : Nat → Option D) (rs : List Nat) (o : Option (Nat × D)) : Prop :=
  ∀ w, o = some w → w.1 ∈ rs ∧ cand w.1 = some w.2

/-- The content is at most the distance of the sample. -/
def Below (o : Option (Nat × D)) (d : D) : Prop := ∃ w, o = some w ∧ w.2 ≤ d

theorem take1_spec {cand : Nat → Option D} {rs : List Nat} {i : Nat} (hi : i ∈ rs) {o : Option (Nat × D)}
    (h : Holds cand rs o) :
    Holds cand rs (take1 (cand i) i o) ∧ (∀ d, Below o d → Below (take1 (cand i) i o) d) ∧
      ∀ d, cand i = some d → Below (take1 (cand i) i o) d := by
  cases o with
  | none =>
    refine ⟨?_, fun d hd => ?_, ?_⟩
    · intro w hw
      cases hc : cand i with
      | none => rw [hc] at hw; cases hw
      | some d =>
        rw [hc] at hw
        injection hw with hw
        subst hw
        exact ⟨hi, hc⟩
    · obtain ⟨w, hw, -⟩ := hd
      cases hw
    · intro d hd
      exact ⟨(i, d), by rw [hd]; rfl, le_refl _⟩
  | some w =>
    obtain ⟨j, e⟩ := w
    cases hc : cand i with
    | none => exact ⟨h, fun d hd => hd, fun d hd => by cases hd⟩
    | some d =>
      simp only [take1]
      by_cases hde : d < e
      · rw [if_pos hde]
        refine ⟨?_, ?_, ?_⟩
        · intro w hw
          injection hw with hw
          subst hw
          exact ⟨hi, hc⟩
        · rintro d' ⟨w, hw, hd'⟩
          injection hw with hw
          subst hw
          exact ⟨_, rfl, hde.le.trans hd'⟩
        · intro d' hd'
          injection hd' with hd'
          exact ⟨_, rfl, hd'.le⟩
      · rw [if_neg hde]
        refine ⟨h, fun d' hd' => hd', ?_⟩
        intro d' hd'
        injection hd' with hd'
        exact ⟨_, rfl, hd' ▸ not_lt.1 hde⟩

/-! ### Hypotheses and invariants -/

/-- What is assumed of the constants, the bounds and the buffers. -/
structure Ok (env : Env K D S) (TQ TR : Tree K) (cand : Nat → Nat → Option D) (relax : D → D)
    (Good : S → Prop) : Prop where
  cap : env.capacity = 1
  inf : ∀ d, d ≤ env.inf
  add : ∀ t ∈ nodes TQ, ∀ c, c ≤ env.add c (env.diam t)
  rel : ∀ d, d ≤ relax d
  low : ∀ sq ∈ nodes TQ, ∀ sr ∈ nodes TR, ∀ a ∈ sq.indices, ∀ b ∈ sr.indices, ∀ d,
    cand a b = some d → env.minDist sq sr ≤ relax d
  fin : ∀ a b d, cand a b = some d → d < env.inf
  off : ∀ q ∈ TQ.indices, ∀ s, Good s → ∀ b b', ∀ i ∈ TR.indices,
    Buf.offer (cand q) b i = some b' → ∃ s', Good s' ∧ env.offer q s b i = some (s', b')

variable {env : Env K D S} {TQ TR : Tree K} {cand : Nat → Nat → Option D} {relax : D → D}
  {Good : S → Prop}

/-- Distance of the best edge so far. -/
def best (env : Env K D S) (st : State D S) : D := topDistance env (st.pq, st.inPq)

/-- Limits are at least the best distance. -/
def LimOk (inf m : D) (l : Limits D) : Prop := m ≤ l.closest ∧ (l.closest ≤ l.furthest ∨ l.closest = inf)

/-- The queue holds nothing or one edge. -/
def QueueOk (TQ TR : Tree K) (cand : Nat → Nat → Option D) (w : Queue D) : Prop :=
  w = ([], []) ∨ ∃ a b d, w = ([(a, b, d)], [(a, b)]) ∧ a ∈ TQ.indices ∧ b ∈ TR.indices ∧
    cand a b = some d

/-- The invariant of the traversal. -/
structure Inv (env : Env K D S) (TQ TR : Tree K) (cand : Nat → Nat → Option D) (Good : S → Prop)
    (st : State D S) : Prop where
  good : Good st.shared
  queue : QueueOk TQ TR cand (st.pq, st.inPq)
  bufs : ∀ q b, st.bufs q = some b → q ∈ TQ.indices ∧ ∃ o, b = buf1 env.inf o ∧
    Holds (cand q) TR.indices o ∧ ∀ w, o = some w → best env st ≤ w.2
  lims : ∀ p l, st.limits p = some l → LimOk env.inf (best env st) l

/-! ### Bounds -/

theorem LimOk.mono {inf m m' : D} {l : Limits D} (h : LimOk inf m l) (hm : m' ≤ m) : LimOk inf m' l :=
  ⟨hm.trans h.1, h.2⟩

theorem limits0_ok (ok : Ok env TQ TR cand relax Good) (m : D) : LimOk env.inf m (limits0 env) :=
  ⟨ok.inf m, Or.inr rfl⟩

theorem limitStep_ok (ok : Ok env TQ TR cand relax Good) {st : State D S} (hst : Inv env TQ TR cand Good st)
    {l : Limits D} (hl : LimOk env.inf (best env st) l) (q : Nat) :
    LimOk env.inf (best env st) (limitStep env st.bufs l q) := by
  unfold limitStep
  cases hb : st.bufs q with
  | none => exact ⟨hl.1, Or.inl (ok.inf _)⟩
  | some b =>
    obtain ⟨-, o, rfl, -, hw⟩ := hst.bufs q b hb
    cases o with
    | none =>
      dsimp only
      rw [if_pos (by rw [remaining_none]; simp)]
      exact ⟨hl.1, Or.inl (ok.inf _)⟩
    | some w =>
      dsimp only
      rw [if_neg (by rw [remaining_some]; simp)]
      have := hw w rfl
      refine ⟨le_min hl.1 this, ?_⟩
      rcases hl.2 with h | h
      · exact Or.inl ((min_le_left _ _).trans (h.trans (le_max_left _ _)))
      · exact Or.inl ((min_le_right _ _).trans (le_max_right _ _))

theorem updateBoundsLimits_ok (ok : Ok env TQ TR cand relax Good) {st : State D S}
    (hst : Inv env TQ TR cand Good st) (p : Path) (t : Tree K) :
    LimOk env.inf (best env st) (updateBoundsLimits env st p t) := by
  unfold updateBoundsLimits
  have h0 : LimOk env.inf (best env st) ((st.limits p).getD (limits0 env)) := by
    cases h : st.limits p with
    | none => exact limits0_ok ok _
    | some l => exact hst.lims p l h
  generalize (st.limits p).getD (limits0 env) = l at h0
  induction t.own generalizing l with
  | nil => exact h0
  | cons q qs ih => exact ih _ (limitStep_ok ok hst h0 q)

theorem childStep_ok (ok : Ok env TQ TR cand relax Good) {m : D}
    {s : (Path → Option (Limits D)) × Limits D} (h1 : ∀ p l, s.1 p = some l → LimOk env.inf m l)
    (h2 : LimOk env.inf m s.2) (c : Path) :
    (∀ p l, (childStep env s c).1 p = some l → LimOk env.inf m l) ∧
      LimOk env.inf m (childStep env s c).2 := by
  unfold childStep
  cases h : s.1 c with
  | none =>
    refine ⟨?_, h2⟩
    intro p l hp
    dsimp only at hp
    split at hp
    · injection hp with hp
      subst hp
      exact limits0_ok ok m
    · exact h1 p l hp
  | some l =>
    have hl := h1 c l h
    refine ⟨h1, le_min h2.1 hl.1, ?_⟩
    rcases h2.2 with ha | ha
    · exact Or.inl ((min_le_left _ _).trans (ha.trans (le_max_left _ _)))
    · rcases hl.2 with hb | hb
      · exact Or.inl ((min_le_right _ _).trans (hb.trans (le_max_right _ _)))
      · right
        dsimp only
        rw [ha, hb, min_self]

theorem furthestBound_ok (ok : Ok env TQ TR cand relax Good) {st : State D S}
    (hst : Inv env TQ TR cand Good st) (p : Path) {t : Tree K} (ht : t ∈ nodes TQ) :
    Inv env TQ TR cand Good (furthestBound env st p t).1 ∧
      (furthestBound env st p t).1.visited = st.visited ∧
      best env (furthestBound env st p t).1 = best env st ∧
      best env st ≤ (furthestBound env st p t).2 := by
  have hl := updateBoundsLimits_ok ok hst p t
  have hs : ∃ s : (Path → Option (Limits D)) × Limits D,
      furthestBound env st p t = ({ st with limits := fun r => if r = p then some s.2 else s.1 r },
        adjustedBound env s.2 (env.diam t)) ∧
      (∀ p l, s.1 p = some l → LimOk env.inf (best env st) l) ∧ LimOk env.inf (best env st) s.2 := by
    cases t with
    | leaf => exact ⟨_, rfl, hst.lims, hl⟩
    | node =>
      have a := childStep_ok ok (s := (st.limits, _)) hst.lims hl (p ++ [false])
      have b := childStep_ok ok a.1 a.2 (p ++ [true])
      exact ⟨_, rfl, b.1, b.2⟩
  obtain ⟨s, e, h1, h2⟩ := hs
  rw [e]
  refine ⟨⟨hst.good, hst.queue, hst.bufs, ?_⟩, rfl, rfl, ?_⟩
  · intro r l hr
    dsimp only at hr
    split at hr
    · injection hr with hr
      subst hr
      exact h2
    · exact h1 r l hr
  · show best env st ≤ adjustedBound env s.2 (env.diam t)
    unfold adjustedBound
    split
    · rename_i h
      have hne : s.2.closest ≠ env.inf := (h.trans_le (ok.inf _)).ne
      have hcf := h2.2.resolve_right hne
      exact le_min (h2.1.trans hcf) (h2.1.trans (ok.add t ht _))
    · exact ok.inf _

/-- Pruning is right. -/
theorem updateCost_ok (ok : Ok env TQ TR cand relax Good) {st : State D S}
    (hst : Inv env TQ TR cand Good st) {p p' : Path} {tq tr : Tree K} (hq : nodeAt TQ p = some tq)
    (hr : nodeAt TR p' = some tr) (c : D) (hc : c = env.minDist tq tr) :
    Inv env TQ TR cand Good (updateCost env st p tq c).1 ∧
      (updateCost env st p tq c).1.visited = st.visited ∧
      best env (updateCost env st p tq c).1 = best env st ∧
      ((updateCost env st p tq c).2 = none → ∀ a ∈ tq.indices, ∀ b ∈ tr.indices, ∀ d,
        cand a b = some d → best env st ≤ relax d) ∧
      ∀ d, (updateCost env st p tq c).2 = some d → d = c := by
  have := furthestBound_ok ok hst p (nodeAt_mem hq)
  unfold updateCost
  refine ⟨this.1, this.2.1, this.2.2.1, ?_, ?_⟩
  · intro h
    dsimp only at h
    split at h
    · rename_i hb
      intro a ha b hb' d hd
      exact this.2.2.2.trans (hb.le.trans (hc ▸ ok.low _ (nodeAt_mem hq) _ (nodeAt_mem hr) a ha b hb' d hd))
    · cases h
  · intro d h
    dsimp only at h
    split at h
    · cases h
    · injection h with h
      exact h.symm

/-! ### The queue -/

namespace Heap

variable (h : Heap D)

theorem push_nil (e : Edge D) : h.push e [] = [e] := List.perm_singleton.1 (h.push_perm e [])

theorem pop_pair (e f : Edge D) : h.pop [f, e] = [e] := List.perm_singleton.1 (h.pop_perm [f, e])

theorem pop_one (e : Edge D) : h.pop [e] = [] := List.perm_nil.1 (h.pop_perm [e])

theorem length_push (e : Edge D) (l : List (Edge D)) : (h.push e l).length = l.length + 1 :=
  (h.push_perm e l).length_eq

theorem length_pop (e : Edge D) (l : List (Edge D)) : (h.pop (e :: l)).length = l.length :=
  (h.pop_perm (e :: l)).length_eq

theorem mem_push {e f : Edge D} {l : List (Edge D)} (hf : f ∈ h.push e l) : f = e ∨ f ∈ l := by
  simpa using (h.push_perm e l).mem_iff.1 hf

theorem mem_pop {e f : Edge D} {l : List (Edge D)} (hf : f ∈ h.pop (e :: l)) : f ∈ l := by
  simpa using (h.pop_perm (e :: l)).mem_iff.1 hf

/-- A shorter edge goes below. -/
theorem push_shorter {e f : Edge D} (hlt : e.2.2 < f.2.2) : h.push e [f] = [f, e] := by
  have hp := h.push_perm e [f]
  obtain ⟨t, r, hr⟩ : ∃ t r, h.push e [f] = t :: r := List.exists_cons_of_length_pos (by rw [h.length_push]; simp)
  have htop := h.push_top e [f] t r hr
  rw [hr] at hp ⊢
  have ht : t ∈ [e, f] := hp.mem_iff.1 (by simp)
  simp only [List.mem_cons, List.not_mem_nil, or_false] at ht
  rcases ht with rfl | rfl
  · have := List.perm_singleton.1 ((List.perm_cons t).1 hp)
    subst this
    exact absurd (htop f (by simp)) (not_le.2 hlt)
  · have := List.perm_singleton.1 ((List.perm_cons t).1 (hp.trans (List.Perm.swap _ _ _)))
    rw [this]

end Heap

/-- Insertion into a list in decreasing order, below the edges of the same length. -/
def pqInsert (e : Edge D) : List (Edge D) → List (Edge D)
  | [] => [e]
  | f :: l => if f.2.2 < e.2.2 then e :: f :: l else f :: pqInsert e l

theorem pqInsert_perm (e : Edge D) (l : List (Edge D)) : (pqInsert e l).Perm (e :: l) := by
  induction l with
  | nil => exact List.Perm.refl _
  | cons f l ih =>
    unfold pqInsert
    split
    · exact List.Perm.refl _
    · exact (List.Perm.cons f ih).trans (List.Perm.swap _ _ _)

theorem pqInsert_sorted (e : Edge D) {l : List (Edge D)} (hl : l.Pairwise fun a b => b.2.2 ≤ a.2.2) :
    (pqInsert e l).Pairwise fun a b => b.2.2 ≤ a.2.2 := by
  induction l with
  | nil => simp [pqInsert]
  | cons f l ih =>
    rw [List.pairwise_cons] at hl
    unfold pqInsert
    split
    · rename_i h
      refine List.pairwise_cons.2 ⟨fun g hg => ?_, List.pairwise_cons.2 hl⟩
      rcases List.mem_cons.1 hg with rfl | hg
      · exact h.le
      · exact (hl.1 g hg).trans h.le
    · rename_i h
      refine List.pairwise_cons.2 ⟨fun g hg => ?_, ih hl.2⟩
      rcases List.mem_cons.1 ((pqInsert_perm e l).mem_iff.1 hg) with rfl | hg
      · exact not_lt.1 h
      · exact hl.1 g hg

theorem sortEdges_spec (l : List (Edge D)) :
    (l.foldr pqInsert []).Perm l ∧ (l.foldr pqInsert []).Pairwise fun a b => b.2.2 ≤ a.2.2 := by
  induction l with
  | nil => simp
  | cons e l ih =>
    exact ⟨(pqInsert_perm e _).trans (List.Perm.cons e ih.1), pqInsert_sorted e ih.2⟩

/-- A priority queue: the list in decreasing order. -/
def listHeap : Heap D where
  push := fun e l => pqInsert e (l.foldr pqInsert [])
  pop := fun l => l.tail.foldr pqInsert []
  push_perm := fun e l => (pqInsert_perm e _).trans (List.Perm.cons e (sortEdges_spec l).1)
  pop_perm := fun l => (sortEdges_spec l.tail).1
  push_top := fun e l t r h => by
    have := pqInsert_sorted e (sortEdges_spec l).2
    rw [h, List.pairwise_cons] at this
    exact this.1
  pop_top := fun l t r h => by
    have := (sortEdges_spec l.tail).2
    rw [h, List.pairwise_cons] at this
    exact this.1

theorem updateQueue_one (ok : Ok env TQ TR cand relax Good) {w : Queue D} (hw : QueueOk TQ TR cand w)
    {q : Nat} (hq : q ∈ TQ.indices) {o : Option (Nat × D)} (ho : Holds (cand q) TR.indices o) :
    QueueOk TQ TR cand (updateQueue env w q (buf1 env.inf o)) ∧
      topDistance env (updateQueue env w q (buf1 env.inf o)) ≤ topDistance env w ∧
      ∀ e, o = some e → topDistance env (updateQueue env w q (buf1 env.inf o)) ≤ e.2 := by
  rcases hw with rfl | ⟨a, b, d, rfl, ha, hb, hd⟩
  · cases o with
    | none =>
      have : updateQueue env ([], []) q (buf1 env.inf none) = (([], []) : Queue D) := by
        simp [updateQueue, buf1, mk, shrink]
      rw [this]
      exact ⟨Or.inl rfl, le_refl _, fun e he => by cases he⟩
    | some e =>
      obtain ⟨i, x⟩ := e
      have := ho (i, x) rfl
      have hu : updateQueue env ([], []) q (buf1 env.inf (some (i, x))) = ([(q, i, x)], [(q, i)]) := by
        simp [updateQueue, buf1, shrink, insertNew, Heap.push_nil, topDistance]
      rw [hu]
      refine ⟨Or.inr ⟨q, i, x, rfl, hq, this.1, this.2⟩, ok.inf _, ?_⟩
      intro e he
      injection he with he
      subst he
      exact le_refl _
  · cases o with
    | none =>
      have : updateQueue env ([(a, b, d)], [(a, b)]) q (buf1 env.inf none) =
          (([(a, b, d)], [(a, b)]) : Queue D) := by
        simp [updateQueue, buf1, mk, shrink]
      rw [this]
      exact ⟨Or.inr ⟨a, b, d, rfl, ha, hb, hd⟩, le_refl _, fun e he => by cases he⟩
    | some e =>
      obtain ⟨i, x⟩ := e
      have hix := ho (i, x) rfl
      by_cases hx : x < d
      · have hne : ¬ (q = a ∧ i = b) := by
          rintro ⟨rfl, rfl⟩
          have h1 : cand q i = some x := hix.2
          rw [h1] at hd
          injection hd with hd
          exact absurd hx (by rw [hd]; exact lt_irrefl _)
        have hu : updateQueue env ([(a, b, d)], [(a, b)]) q (buf1 env.inf (some (i, x))) =
            ([(q, i, x)], [(q, i)]) := by
          have hne' : ¬ (a = q ∧ b = i) := fun h => hne ⟨h.1.symm, h.2.symm⟩
          have hp : env.heap.push (q, i, x) [(a, b, d)] = [(a, b, d), (q, i, x)] := Heap.push_shorter _ hx
          simp [updateQueue, buf1, shrink, topDistance, hx, replaceStep, insertNew, hne, hp, Heap.pop_pair,
            popTop, List.erase_cons, hne']
        rw [hu]
        refine ⟨Or.inr ⟨q, i, x, rfl, hq, hix.1, hix.2⟩, hx.le, ?_⟩
        intro e he
        injection he with he
        subst he
        exact le_refl _
      · have hu : updateQueue env ([(a, b, d)], [(a, b)]) q (buf1 env.inf (some (i, x))) =
            ([(a, b, d)], [(a, b)]) := by
          simp [updateQueue, buf1, shrink, topDistance, hx]
        rw [hu]
        refine ⟨Or.inr ⟨a, b, d, rfl, ha, hb, hd⟩, le_refl _, ?_⟩
        intro e he
        injection he with he
        subst he
        exact not_lt.1 hx

/-! ### Searching the samples of two nodes -/

theorem searchBuffer_ok (ok : Ok env TQ TR cand relax Good) {q : Nat} (hq : q ∈ TQ.indices)
    (is : List Nat) (his : ∀ i ∈ is, i ∈ TR.indices) :
    ∀ (s : S) (o : Option (Nat × D)), Good s → Holds (cand q) TR.indices o →
    ∃ s' o', searchBuffer env q is s (buf1 env.inf o) = some (s', buf1 env.inf o') ∧ Good s' ∧
      Holds (cand q) TR.indices o' ∧ (∀ d, Below o d → Below o' d) ∧
      ∀ i ∈ is, ∀ d, cand q i = some d → Below o' d := by
  induction is with
  | nil => exact fun s o hs ho => ⟨s, o, rfl, hs, ho, fun d hd => hd, fun i hi => by simp at hi⟩
  | cons i is ih =>
    intro s o hs ho
    have hi : i ∈ TR.indices := his i (by simp)
    obtain ⟨s1, hs1, e1⟩ := ok.off q hq s hs _ _ i hi (offer_buf1 env.inf (cand q) o i)
    have ht := take1_spec hi ho
    obtain ⟨s2, o2, e2, hs2, ho2, hb2, hc2⟩ := ih (fun j hj => his j (by simp [hj])) s1 _ hs1 ht.1
    refine ⟨s2, o2, ?_, hs2, ho2, fun d hd => hb2 d (ht.2.1 d hd), ?_⟩
    · rw [searchBuffer, e1]
      exact e2
    · intro j hj d hd
      rcases List.mem_cons.1 hj with rfl | hj
      · exact hb2 d (ht.2.2 d hd)
      · exact hc2 j hj d hd

theorem searchQuery_ok (ok : Ok env TQ TR cand relax Good) {st : State D S}
    (hst : Inv env TQ TR cand Good st) {q : Nat} (hq : q ∈ TQ.indices) {is : List Nat}
    (his : ∀ i ∈ is, i ∈ TR.indices) :
    ∃ st', searchQuery env st is q = some st' ∧ Inv env TQ TR cand Good st' ∧
      st'.visited = st.visited ∧ best env st' ≤ best env st ∧
      ∀ i ∈ is, ∀ d, cand q i = some d → best env st' ≤ d := by
  have hb : ∃ o, (st.bufs q).getD (mk env.inf env.capacity) = buf1 env.inf o ∧
      Holds (cand q) TR.indices o := by
    cases h : st.bufs q with
    | none => exact ⟨none, by rw [ok.cap]; rfl, fun w hw => by cases hw⟩
    | some b =>
      obtain ⟨-, o, rfl, ho, -⟩ := hst.bufs q b h
      exact ⟨o, rfl, ho⟩
  obtain ⟨o, eo, ho⟩ := hb
  obtain ⟨s', o', e, hs', ho', -, hcov⟩ := searchBuffer_ok ok hq is his st.shared o hst.good ho
  obtain ⟨hu1, hu2, hu3⟩ := updateQueue_one ok hst.queue hq ho'
  refine ⟨{ st with shared := s', bufs := fun r => if r = q then some (buf1 env.inf o') else st.bufs r,
                    pq := (updateQueue env (st.pq, st.inPq) q (buf1 env.inf o')).1,
                    inPq := (updateQueue env (st.pq, st.inPq) q (buf1 env.inf o')).2 },
    by rw [searchQuery, eo, e]; rfl, ?_, rfl, hu2, ?_⟩
  · refine ⟨hs', hu1, ?_, ?_⟩
    · intro r b hr
      dsimp only at hr
      split at hr
      · rename_i h
        subst h
        injection hr with hr
        exact ⟨hq, o', hr.symm, ho', fun w hw => hu3 w hw⟩
      · obtain ⟨h1, o1, h2, h3, h4⟩ := hst.bufs r b hr
        exact ⟨h1, o1, h2, h3, fun w hw => le_trans hu2 (h4 w hw)⟩
    · intro p l hp
      exact (hst.lims p l hp).mono hu2
  · intro i hi d hd
    obtain ⟨w, hw, hwd⟩ := hcov i hi d hd
    exact le_trans (hu3 w hw) hwd

theorem searchQueries_ok (ok : Ok env TQ TR cand relax Good) {is : List Nat}
    (his : ∀ i ∈ is, i ∈ TR.indices) (qs : List Nat) (hqs : ∀ q ∈ qs, q ∈ TQ.indices) :
    ∀ st : State D S, Inv env TQ TR cand Good st →
    ∃ st', searchQueries env st is qs = some st' ∧ Inv env TQ TR cand Good st' ∧
      st'.visited = st.visited ∧ best env st' ≤ best env st ∧
      ∀ q ∈ qs, ∀ i ∈ is, ∀ d, cand q i = some d → best env st' ≤ d := by
  induction qs with
  | nil => exact fun st hst => ⟨st, rfl, hst, rfl, le_refl _, fun q hq => by simp at hq⟩
  | cons q qs ih =>
    intro st hst
    obtain ⟨st1, e1, h1, hv1, hb1, hc1⟩ := searchQuery_ok ok hst (hqs q (by simp)) his
    obtain ⟨st2, e2, h2, hv2, hb2, hc2⟩ := ih (fun r hr => hqs r (by simp [hr])) st1 h1
    refine ⟨st2, ?_, h2, hv2.trans hv1, hb2.trans hb1, ?_⟩
    · rw [searchQueries, List.foldlM_cons, e1]
      exact e2
    · intro r hr i hi d hd
      rcases List.mem_cons.1 hr with rfl | hr
      · exact hb2.trans (hc1 i hi d hd)
      · exact hc2 r hr i hi d hd

/-! ### The traversal -/

/-- The pairs of samples of the two nodes are covered. -/
def Cov (TQ TR : Tree K) (C : State D S → Nat → Nat → Prop) (st : State D S) (v : Path × Path) : Prop :=
  ∀ sq sr, nodeAt TQ v.1 = some sq → nodeAt TR v.2 = some sr →
    ∀ a ∈ sq.indices, ∀ b ∈ sr.indices, C st a b

/-- No pair covered in `st` is lost in `st'`. -/
def Later (C : State D S → Nat → Nat → Prop) (st' st : State D S) : Prop := ∀ a b, C st a b → C st' a b

theorem Later.trans {C : State D S → Nat → Nat → Prop} {s t u : State D S} (h : Later C s t)
    (h' : Later C t u) : Later C s u := fun a b hab => h a b (h' a b hab)

theorem Later.refl (C : State D S → Nat → Nat → Prop) (s : State D S) : Later C s s := fun _ _ h => h

theorem Cov.mono {C : State D S → Nat → Nat → Prop} {st st' : State D S} {v : Path × Path}
    (h : Cov TQ TR C st v) (hm : Later C st' st) : Cov TQ TR C st' v :=
  fun sq sr h1 h2 a ha b hb => hm a b (h sq sr h1 h2 a ha b hb)

/-- What the traversal needs: an invariant, and a notion of covered pairs such that pruned pairs and
searched pairs are covered. -/
structure Sys (env : Env K D S) (TQ TR : Tree K) (I : State D S → Prop)
    (C : State D S → Nat → Nat → Prop) : Prop where
  vis : ∀ st v, I st → I { st with visited := v }
  visC : ∀ st v, Later C { st with visited := v } st
  cost : ∀ st, I st → ∀ p p' tq tr, nodeAt TQ p = some tq → nodeAt TR p' = some tr →
    ∀ c, c = env.minDist tq tr →
    I (updateCost env st p tq c).1 ∧ (updateCost env st p tq c).1.visited = st.visited ∧
      Later C (updateCost env st p tq c).1 st ∧
      ((updateCost env st p tq c).2 = none → Cov TQ TR C (updateCost env st p tq c).1 (p, p')) ∧
      ∀ d, (updateCost env st p tq c).2 = some d → d = c
  search : ∀ is : List Nat, (∀ i ∈ is, i ∈ TR.indices) → ∀ qs : List Nat, (∀ q ∈ qs, q ∈ TQ.indices) →
    ∀ st, I st → ∃ st', searchQueries env st is qs = some st' ∧ I st' ∧ st'.visited = st.visited ∧
      Later C st' st ∧ ∀ q ∈ qs, ∀ i ∈ is, C st' q i

variable {I : State D S → Prop} {C : State D S → Nat → Nat → Prop}

/-- What a call guarantees. -/
def Post (TQ TR : Tree K) (I : State D S → Prop) (C : State D S → Nat → Nat → Prop) (st : State D S)
    (v : Path × Path) (st' : State D S) : Prop :=
  I st' ∧ Later C st' st ∧ Cov TQ TR C st' v ∧ ∀ u ∈ st'.visited, Cov TQ TR C st' u ∨ u ∈ st.visited

/-- Visited pairs are covered unless they are still open. -/
def Closed (TQ TR : Tree K) (C : State D S → Nat → Nat → Prop) (st : State D S) (n : Nat) : Prop :=
  ∀ u ∈ st.visited, Cov TQ TR C st u ∨ u.1.length + u.2.length < n

theorem Post.closed {st st' : State D S} {v : Path × Path} {n : Nat}
    (h : Post TQ TR I C st v st') (hc : Closed TQ TR C st n) : Closed TQ TR C st' n := by
  intro u hu
  rcases h.2.2.2 u hu with h' | h'
  · exact Or.inl h'
  · rcases hc u h' with hc | hc
    · exact Or.inl (hc.mono h.2.1)
    · exact Or.inr hc

theorem Closed.of_eq {st st' : State D S} {n : Nat} (h : Closed TQ TR C st n)
    (hv : st'.visited = st.visited) (hb : Later C st' st) : Closed TQ TR C st' n := by
  intro u hu
  rw [hv] at hu
  rcases h u hu with h | h
  · exact Or.inl (h.mono hb)
  · exact Or.inr h

theorem traverse_sys (sys : Sys env TQ TR I C) : ∀ (fuel : Nat) (st : State D S) (p : Path)
    (tq : Tree K) (p' : Path) (tr : Tree K) (optCost : Option D) (bypass : Bool),
    I st → nodeAt TQ p = some tq → nodeAt TR p' = some tr →
    Search.nodeCount tq + Search.nodeCount tr ≤ fuel + 1 →
    Closed TQ TR C st (p.length + p'.length) →
    (∀ c, optCost = some c → c = env.minDist tq tr) →
    ∃ st', traverse env (fuel + 1) st p tq p' tr optCost bypass = some st' ∧
      Post TQ TR I C st (p, p') st' := by
  intro fuel
  induction fuel with
  | zero =>
    intro st p tq p' tr optCost bypass _ _ _ hf
    exfalso
    have : 1 ≤ Search.nodeCount tq := by cases tq <;> simp [Search.nodeCount]
    have : 1 ≤ Search.nodeCount tr := by cases tr <;> simp [Search.nodeCount]
    omega
  | succ fuel ih =>
    intro st p tq p' tr optCost bypass hst hq hr hf hcl hopt
    unfold traverse
    by_cases hv : (p, p') ∈ st.visited
    · rw [if_pos hv]
      refine ⟨st, rfl, hst, Later.refl _ _, ?_, fun u hu => Or.inr hu⟩
      rcases hcl _ hv with h | h
      · exact h
      · simp at h
    rw [if_neg hv]
    -- the pair is marked
    have hst1 : I { st with visited := (p, p') :: st.visited } :=
      sys.vis _ _ hst
    have hvc := sys.visC st ((p, p') :: st.visited)
    have hcost : ∃ st2 c2, pairCost env { st with visited := (p, p') :: st.visited } p tq tr optCost bypass =
          (st2, c2) ∧
        I st2 ∧ st2.visited = (p, p') :: st.visited ∧ Later C st2 st ∧
        (c2 = none → Cov TQ TR C st2 (p, p')) := by
      unfold pairCost
      cases bypass
      · simp only [Bool.false_eq_true, if_false]
        cases optCost with
        | none =>
          have := sys.cost _ hst1 p p' tq tr hq hr _ rfl
          exact ⟨_, _, rfl, this.1, this.2.1, this.2.2.1.trans hvc, this.2.2.2.1⟩
        | some c =>
          have := sys.cost _ hst1 p p' tq tr hq hr c (hopt c rfl)
          exact ⟨_, _, rfl, this.1, this.2.1, this.2.2.1.trans hvc, this.2.2.2.1⟩
      · exact ⟨_, _, rfl, hst1, rfl, hvc, fun h => by cases h⟩
    obtain ⟨st2, c2, e2, h2, hv2, hb2, hc2⟩ := hcost
    rw [e2]
    cases c2 with
    | none =>
      refine ⟨st2, rfl, h2, hb2, hc2 rfl, ?_⟩
      intro u hu
      rw [hv2] at hu
      rcases List.mem_cons.1 hu with rfl | hu
      · exact Or.inl (hc2 rfl)
      · exact Or.inr hu
    | some c =>
      dsimp only
      -- samples of the two nodes
      have hTQ : ∀ i ∈ tq.indices, i ∈ TQ.indices := nodes_indices (nodeAt_mem hq)
      have hTR : ∀ i ∈ tr.indices, i ∈ TR.indices := nodes_indices (nodeAt_mem hr)
      obtain ⟨st3, e3, h3, hv3, hb3, hown⟩ := sys.search _
        (fun i hi => hTR i (own_indices tr i hi)) tq.own (fun i hi => hTQ i (own_indices tq i hi)) st2 h2
      have hcl3 : Closed TQ TR C st3 (p.length + p'.length + 1) := by
        intro u hu
        rw [hv3, hv2] at hu
        rcases List.mem_cons.1 hu with rfl | hu
        · right; simp
        · rcases hcl u hu with h | h
          · exact Or.inl (h.mono (hb3.trans hb2))
          · right; omega
      rw [Option.bind_eq_bind, e3, Option.bind_some]
      -- children of the query node
      have hqc : ∃ st4, queryChildren (traverse env (fuel + 1)) st3 p tq p' tr = some st4 ∧
          I st4 ∧ Later C st4 st3 ∧
          (∀ u ∈ st4.visited, Cov TQ TR C st4 u ∨ u ∈ st3.visited) ∧
          ∀ a ∈ tq.indices, a ∈ tq.own ∨ ∀ b ∈ tr.indices, C st4 a b := by
        cases tq with
        | leaf idx box =>
          exact ⟨st3, rfl, h3, Later.refl _ _, fun u hu => Or.inr hu, fun a ha => Or.inl ha⟩
        | node pv ax box l r =>
          have hl : nodeAt TQ (p ++ [false]) = some l := by rw [nodeAt_append, hq]; simp [nodeAt]
          have hr' : nodeAt TQ (p ++ [true]) = some r := by rw [nodeAt_append, hq]; simp [nodeAt]
          simp only [Search.nodeCount] at hf
          obtain ⟨s4, e4, p4⟩ := ih st3 (p ++ [false]) l p' tr none false h3 hl hr (by omega)
            (by rw [List.length_append, List.length_singleton]; convert hcl3 using 1; omega)
            (fun c hc => by cases hc)
          have hcl4 := p4.closed hcl3
          obtain ⟨s5, e5, p5⟩ := ih s4 (p ++ [true]) r p' tr none false p4.1 hr' hr (by omega)
            (by rw [List.length_append, List.length_singleton]; convert hcl4 using 1; omega)
            (fun c hc => by cases hc)
          refine ⟨s5, ?_, p5.1, p5.2.1.trans p4.2.1, ?_, ?_⟩
          · rw [queryChildren, Option.bind_eq_bind, e4, Option.bind_some, e5]
          · intro u hu
            rcases p5.2.2.2 u hu with h | h
            · exact Or.inl h
            · rcases p4.2.2.2 u h with h | h
              · exact Or.inl (h.mono p5.2.1)
              · exact Or.inr h
          · intro a ha
            simp only [Tree.indices, List.mem_append, List.mem_cons] at ha
            rcases ha with ha | rfl | ha
            · right
              intro b hb
              exact p5.2.1 _ _ (p4.2.2.1 l tr hl hr a ha b hb)
            · left; simp [Tree.own]
            · right
              intro b hb
              exact p5.2.2.1 r tr hr' hr a ha b hb
      obtain ⟨st4, e4, h4, hb4, hv4, hcov4⟩ := hqc
      have hcl4 : Closed TQ TR C st4 (p.length + p'.length + 1) := by
        intro u hu
        rcases hv4 u hu with h | h
        · exact Or.inl h
        · rcases hcl3 u h with h | h
          · exact Or.inl (h.mono hb4)
          · exact Or.inr h
      rw [e4, Option.bind_some]
      -- it is enough to cover the children of the reference node
      have fin : ∀ st6 : State D S, I st6 → Later C st6 st4 →
          (∀ u ∈ st6.visited, Cov TQ TR C st6 u ∨ u ∈ st4.visited) →
          (∀ a ∈ tq.indices, ∀ b ∈ tr.indices, b ∉ tr.own → C st6 a b) →
          Post TQ TR I C st (p, p') st6 := by
        intro st6 h6 hb6 hv6 hc6
        have hcov : Cov TQ TR C st6 (p, p') := by
          intro sq sr e1 e2 a ha b hb
          rw [hq] at e1
          rw [hr] at e2
          injection e1 with e1
          injection e2 with e2
          subst e1 e2
          by_cases hbo : b ∈ tr.own
          · rcases hcov4 a ha with hao | hao
            · exact hb6 _ _ (hb4 _ _ (hown a hao b hbo))
            · exact hb6 _ _ (hao b hb)
          · exact hc6 a ha b hb hbo
        refine ⟨h6, hb6.trans (hb4.trans (hb3.trans hb2)), hcov, ?_⟩
        intro u hu
        rcases hv6 u hu with h | h
        · exact Or.inl h
        · rcases hv4 u h with h | h
          · exact Or.inl (h.mono hb6)
          · rw [hv3, hv2] at h
            rcases List.mem_cons.1 h with rfl | h
            · exact Or.inl hcov
            · exact Or.inr h
      cases tr with
      | leaf idx box =>
        refine ⟨st4, rfl, fin st4 h4 (Later.refl _ _) (fun u hu => Or.inr hu) ?_⟩
        intro a _ b hb hbo
        exact absurd hb hbo
      | node pv ax box l r =>
        have hl : nodeAt TR (p' ++ [false]) = some l := by rw [nodeAt_append, hr]; simp [nodeAt]
        have hr' : nodeAt TR (p' ++ [true]) = some r := by rw [nodeAt_append, hr]; simp [nodeAt]
        simp only [Search.nodeCount] at hf
        obtain ⟨h5, hv5, hb5, hc5, hd5⟩ := sys.cost _ h4 p (p' ++ [false]) tq l hq hl _ rfl
        obtain ⟨h6, hv6, hb6, hc6, hd6⟩ := sys.cost _ h5 p (p' ++ [true]) tq r hq hr' _ rfl
        simp only [refChildren, cost]
        generalize updateCost env st4 p tq (env.minDist tq l) = x5 at *
        generalize updateCost env x5.1 p tq (env.minDist tq r) = x6 at *
        obtain ⟨st5, cl⟩ := x5
        obtain ⟨st6, cr⟩ := x6
        dsimp only at *
        have hcl6 : Closed TQ TR C st6 (p.length + p'.length + 1) :=
          (hcl4.of_eq hv5 hb5).of_eq hv6 hb6
        -- one call
        have call : ∀ (s : State D S) (dir : Bool) (t : Tree K) (oc : Option D) (by_ : Bool),
            I s → Closed TQ TR C s (p.length + p'.length + 1) →
            nodeAt TR (p' ++ [dir]) = some t → (t = l ∨ t = r) → (∀ c, oc = some c → c = env.minDist tq t) →
            ∃ s', traverse env (fuel + 1) s p tq (p' ++ [dir]) t oc by_ = some s' ∧
              Post TQ TR I C s (p, p' ++ [dir]) s' := by
          intro s dir t oc by_ hs hcs hn ht hoc
          refine ih s p tq (p' ++ [dir]) t oc by_ hs hq hn ?_ ?_ hoc
          · rcases ht with rfl | rfl <;> omega
          · rw [List.length_append, List.length_singleton, ← Nat.add_assoc]; exact hcs
        -- conclusion from the two halves
        have fin2 : ∀ s : State D S, I s → Later C s st6 →
            (∀ u ∈ s.visited, Cov TQ TR C s u ∨ u ∈ st6.visited) →
            Cov TQ TR C s (p, p' ++ [false]) →
            Cov TQ TR C s (p, p' ++ [true]) →
            Post TQ TR I C st (p, p') s := by
          intro s hs hbs hvs hcl hcr
          refine fin s hs (hbs.trans (hb6.trans hb5)) ?_ ?_
          · intro u hu
            rcases hvs u hu with h | h
            · exact Or.inl h
            · rw [hv6, hv5] at h; exact Or.inr h
          · intro a ha b hb hbo
            simp only [Tree.indices, List.mem_append, List.mem_cons, Tree.own, List.mem_singleton] at hb hbo
            rcases hb with hb | hb | hb
            · exact hcl tq l hq hl a ha b hb
            · exact absurd hb (by simpa using hbo)
            · exact hcr tq r hq hr' a ha b hb
        have c5 : cl = none → Cov TQ TR C st6 (p, p' ++ [false]) :=
          fun h => (hc5 h).mono hb6
        have c6 : cr = none → Cov TQ TR C st6 (p, p' ++ [true]) :=
          fun h => hc6 h
        -- one child
        have one : ∀ (dir : Bool) (t : Tree K), nodeAt TR (p' ++ [dir]) = some t → (t = l ∨ t = r) →
            (∀ s, Later C s st6 → Cov TQ TR C s (p, p' ++ [!dir])) →
            ∀ x, ∃ st', processQueue (traverse env (fuel + 1)) st6 p tq p' [(dir, t, x)] = some st' ∧
              Post TQ TR I C st (p, p') st' := by
          intro dir t hn ht hother x
          obtain ⟨s, e, hp⟩ := call st6 dir t none true h6 hcl6 hn ht (fun c hc => by cases hc)
          refine ⟨s, by rw [processQueue, e]; rfl, ?_⟩
          cases dir
          · exact fin2 s hp.1 hp.2.1 hp.2.2.2 hp.2.2.1 (hother _ hp.2.1)
          · exact fin2 s hp.1 hp.2.1 hp.2.2.2 (hother _ hp.2.1) hp.2.2.1
        have two : ∀ (dir : Bool) (t t' : Tree K) (c : D), nodeAt TR (p' ++ [dir]) = some t →
            (t = l ∨ t = r) → nodeAt TR (p' ++ [!dir]) = some t' → (t' = l ∨ t' = r) →
            c = env.minDist tq t' →
            ∀ x, ∃ st', processQueue (traverse env (fuel + 1)) st6 p tq p' [(dir, t, x), (!dir, t', c)] =
                some st' ∧
              Post TQ TR I C st (p, p') st' := by
          intro dir t t' c hn ht hn' ht' hc x
          obtain ⟨s, e, hp⟩ := call st6 dir t none true h6 hcl6 hn ht (fun c hc => by cases hc)
          obtain ⟨s', e', hp'⟩ := call s (!dir) t' (some c) false hp.1 (hp.closed hcl6) hn' ht'
            (fun c' hc' => by injection hc' with hc'; rw [← hc', hc])
          have hvv : ∀ u ∈ s'.visited, Cov TQ TR C s' u ∨ u ∈ st6.visited := by
            intro u hu
            rcases hp'.2.2.2 u hu with h | h
            · exact Or.inl h
            · rcases hp.2.2.2 u h with h | h
              · exact Or.inl (h.mono hp'.2.1)
              · exact Or.inr h
          refine ⟨s', ?_, ?_⟩
          · rw [processQueue, Option.bind_eq_bind, e, Option.bind_some, List.foldlM_cons]
            dsimp only
            rw [e']
            rfl
          · have hcv := hp.2.2.1.mono hp'.2.1
            have hcv' := hp'.2.2.1
            cases dir
            · exact fin2 s' hp'.1 (hp'.2.1.trans hp.2.1) hvv hcv hcv'
            · exact fin2 s' hp'.1 (hp'.2.1.trans hp.2.1) hvv hcv' hcv
        cases cl with
        | none =>
          cases cr with
          | none => exact ⟨st6, rfl, fin2 st6 h6 (Later.refl _ _) (fun u hu => Or.inr hu) (c5 rfl) (c6 rfl)⟩
          | some b => exact one true r hr' (Or.inr rfl) (fun m hm => (c5 rfl).mono hm) b
        | some a =>
          cases cr with
          | none => exact one false l hl (Or.inl rfl) (fun m hm => (c6 rfl).mono hm) a
          | some b =>
            simp only [childQueue]
            by_cases hab : b < a
            · rw [if_pos hab]
              exact two true r l a hr' (Or.inr rfl) hl (Or.inl rfl) (hd5 a rfl) b
            · rw [if_neg hab]
              exact two false l r b hl (Or.inl rfl) hr' (Or.inr rfl) (hd6 b rfl) a

/-- The search with one neighbour per query: a pair is covered when the best edge is not longer (up to
`relax`). -/
theorem sys_one (ok : Ok env TQ TR cand relax Good) :
    Sys env TQ TR (Inv env TQ TR cand Good)
      (fun st a b => ∀ d, cand a b = some d → best env st ≤ relax d) where
  vis := fun st v h => ⟨h.good, h.queue, h.bufs, h.lims⟩
  visC := fun st v a b h => h
  cost := by
    intro st hst p p' tq tr hq hr c hc
    obtain ⟨h1, h2, h3, h4, h5⟩ := updateCost_ok ok hst hq hr c hc
    refine ⟨h1, h2, fun a b h d hd => h3.le.trans (h d hd), ?_, h5⟩
    intro h sq sr e1 e2 a ha b hb d hd
    rw [hq] at e1
    rw [hr] at e2
    injection e1 with e1
    injection e2 with e2
    subst e1 e2
    exact h3.le.trans (h4 h a ha b hb d hd)
  search := by
    intro is his qs hqs st hst
    obtain ⟨st', e, h1, h2, h3, h4⟩ := searchQueries_ok ok his qs hqs st hst
    exact ⟨st', e, h1, h2, fun a b h d hd => h3.trans (h d hd),
      fun q hq i hi d hd => (h4 q hq i hi d hd).trans (ok.rel d)⟩

theorem start_inv (ok : Ok env TQ TR cand relax Good) {s : S} (hs : Good s) :
    Inv env TQ TR cand Good (start s) :=
  ⟨hs, Or.inl rfl, fun q b h => (by cases h), fun p l h => (by cases h)⟩

/-- The result of the search. -/
theorem dualSearch_ok (ok : Ok env TQ TR cand relax Good) {s : S} (hs : Good s) :
    (∃ (s' : S) (e : Edge D), dualSearch env s TQ TR = some (s', e) ∧ Good s' ∧ e.1 ∈ TQ.indices ∧
      e.2.1 ∈ TR.indices ∧ cand e.1 e.2.1 = some e.2.2 ∧
      ∀ a ∈ TQ.indices, ∀ b ∈ TR.indices, ∀ d, cand a b = some d → e.2.2 ≤ relax d) ∨
    (dualSearch env s TQ TR = none ∧
      ∀ a ∈ TQ.indices, ∀ b ∈ TR.indices, ∀ d, cand a b = some d → env.inf ≤ relax d) := by
  obtain ⟨f, hf⟩ : ∃ f, Search.nodeCount TQ + Search.nodeCount TR = f + 1 := by
    have : 1 ≤ Search.nodeCount TQ := by cases TQ <;> simp [Search.nodeCount]
    exact ⟨Search.nodeCount TQ + Search.nodeCount TR - 1, by omega⟩
  obtain ⟨st, e, hinv, -, hcov, -⟩ := traverse_sys (sys_one ok) f (start s) [] TQ [] TR none false
    (start_inv ok hs) (nodeAt_nil TQ) (nodeAt_nil TR) (by omega) (fun u hu => by cases hu)
    (fun c hc => by cases hc)
  unfold dualSearch
  rw [hf, e]
  have hc : ∀ a ∈ TQ.indices, ∀ b ∈ TR.indices, ∀ d, cand a b = some d → best env st ≤ relax d :=
    hcov TQ TR (nodeAt_nil TQ) (nodeAt_nil TR)
  rcases hinv.queue with h | ⟨a, b, d, h, ha, hb, hd⟩
  · right
    have hp : st.pq = [] := congrArg Prod.fst h
    have hbest : best env st = env.inf := by unfold best; rw [h]; rfl
    refine ⟨?_, ?_⟩
    · simp [hp]
    · rw [hbest] at hc
      exact hc
  · left
    have hp : st.pq = [(a, b, d)] := congrArg Prod.fst h
    have hbest : best env st = d := by unfold best; rw [h]; rfl
    rw [hbest] at hc
    refine ⟨st.shared, (a, b, d), ?_, hinv.good, ha, hb, hd, hc⟩
    simp [hp]

theorem shortestEdge_ok (ok : Ok env TQ TR cand relax Good) {s : S} (hs : Good s) :
    (∃ e : Edge D, shortestEdge env s TQ TR = some e ∧ e.1 ∈ TQ.indices ∧ e.2.1 ∈ TR.indices ∧
      cand e.1 e.2.1 = some e.2.2 ∧
      ∀ a ∈ TQ.indices, ∀ b ∈ TR.indices, ∀ d, cand a b = some d → e.2.2 ≤ relax d) ∨
    (shortestEdge env s TQ TR = none ∧
      ∀ a ∈ TQ.indices, ∀ b ∈ TR.indices, ∀ d, cand a b = some d → env.inf ≤ relax d) := by
  unfold shortestEdge
  rcases dualSearch_ok ok hs with ⟨s', e, h1, -, h2⟩ | ⟨h1, h2⟩
  · exact Or.inl ⟨e, by rw [h1]; rfl, h2⟩
  · exact Or.inr ⟨by rw [h1]; rfl, h2⟩

end Verif.DualTree
