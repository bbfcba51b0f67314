import Verif.Lemmas.DualTree
import Verif.Lemmas.Buffer

/-
Lemmas on the dual-tree search with any number of neighbours per query: the result is an admissible
pair whenever there is one.
-/

namespace Verif.DualTree

open Verif.KDTree Verif.Buffer Spec

set_option linter.unusedSectionVars false

variable {K D S : Type} [LinearOrder K] [LinearOrder D]

/-- What is assumed of the constants and the buffers. -/
structure OkMany (env : Env K D S) (TQ TR : Tree K) (cand : Nat → Nat → Option D) (Good : S → Prop) :
    Prop where
  cap_pos : 1 ≤ env.capacity
  cap_lt : env.capacity < sizeMod
  inf : ∀ d, d ≤ env.inf
  off : ∀ q ∈ TQ.indices, ∀ s, Good s → ∀ b b', ∀ i ∈ TR.indices,
    Buf.offer (cand q) b i = some b' → ∃ s', Good s' ∧ env.offer q s b i = some (s', b')

variable {env : Env K D S} {TQ TR : Tree K} {cand : Nat → Nat → Option D} {Good : S → Prop}

/-- An edge of the search. -/
def ValidEdge (TQ TR : Tree K) (cand : Nat → Nat → Option D) (e : Edge D) : Prop :=
  e.1 ∈ TQ.indices ∧ e.2.1 ∈ TR.indices ∧ cand e.1 e.2.1 = some e.2.2

/-- The invariant: what is stored is admissible, and as long as the queue is empty nothing is known. -/
structure InvMany (env : Env K D S) (TQ TR : Tree K) (cand : Nat → Nat → Option D) (Good : S → Prop)
    (st : State D S) : Prop where
  good : Good st.shared
  queue : ∀ e ∈ st.pq, ValidEdge TQ TR cand e
  bufs : ∀ q b, st.bufs q = some b → ∃ kept all, WF env.inf env.capacity b kept all ∧
    (∀ a ∈ kept, ValidEdge TQ TR cand (q, a.1, a.2)) ∧ (st.pq = [] → kept = [])
  lims : st.pq = [] → ∀ p l, st.limits p = some l → l.closest = env.inf

/-! ### the queue -/

theorem shrink_spec {c : Nat} (hc : 1 ≤ c) : ∀ (fuel : Nat) (w : Queue D),
    (∀ e ∈ (shrink env c fuel w).1, e ∈ w.1) ∧ (w.1 ≠ [] → (shrink env c fuel w).1 ≠ []) := by
  intro fuel
  induction fuel with
  | zero => exact fun w => ⟨fun e he => he, fun h => h⟩
  | succ fuel ih =>
    intro w
    unfold shrink
    split
    · rename_i hlt
      obtain ⟨h1, h2⟩ := ih (popTop env w)
      obtain ⟨l, s⟩ := w
      cases l with
      | nil => simp at hlt
      | cons e l =>
        refine ⟨fun f hf => ?_, fun _ => h2 ?_⟩
        · have := h1 f hf
          simp only [popTop] at this
          simp [env.heap.mem_pop this]
        · simp only [popTop]
          simp only [List.length_cons] at hlt
          intro h
          have := env.heap.length_pop e l
          rw [h, List.length_nil] at this
          omega
    · exact ⟨fun e he => he, fun h => h⟩

theorem insertNew_spec (e : Edge D) (w : Queue D) (P : Edge D → Prop) (he : P e) (hw : ∀ f ∈ w.1, P f) :
    (∀ f ∈ (insertNew env e w).1.1, P f) ∧ (w.1 ≠ [] → (insertNew env e w).1.1 ≠ []) ∧
      ((insertNew env e w).2 = true → (insertNew env e w).1.1.length = w.1.length + 1) := by
  unfold insertNew
  split
  · exact ⟨hw, fun h => h, fun h => by cases h⟩
  · refine ⟨?_, fun _ h => ?_, fun _ => env.heap.length_push e w.1⟩
    · intro f hf
      rcases env.heap.mem_push hf with rfl | hf
      · exact he
      · exact hw f hf
    · have := congrArg List.length h
      rw [env.heap.length_push] at this
      simp at this

theorem replaceStep_spec {c q : Nat} (hc : 1 ≤ c) (w : Queue D) (a : Nat × D) (P : Edge D → Prop)
    (ha : P (q, a.1, a.2)) (hw : ∀ f ∈ w.1, P f) :
    (∀ f ∈ (replaceStep env c q w a).1, P f) ∧ (w.1 ≠ [] → (replaceStep env c q w a).1 ≠ []) := by
  unfold replaceStep
  split
  · have h := insertNew_spec (env := env) (q, a.1, a.2) w P ha hw
    generalize insertNew env (q, a.1, a.2) w = r at h
    obtain ⟨w', b⟩ := r
    cases b with
    | false => exact ⟨h.1, h.2.1⟩
    | true =>
      dsimp only at h ⊢
      split
      · rename_i hlt
        obtain ⟨l, s⟩ := w'
        cases l with
        | nil => simp at hlt
        | cons e l =>
          refine ⟨fun f hf => h.1 f ?_, fun _ hl => ?_⟩
          · simp only [popTop] at hf
            simp [env.heap.mem_pop hf]
          · simp only [popTop] at hl
            have := env.heap.length_pop e l
            rw [hl, List.length_nil] at this
            simp only [List.length_cons] at hlt
            omega
      · exact ⟨h.1, h.2.1⟩
  · exact ⟨hw, fun h => h⟩

/-- The queue after an update: only edges of the queue and of the buffer, and not empty unless both
are. -/
theorem updateQueue_many {c : Nat} (hc : 1 ≤ c) (hc2 : c < sizeMod) {w : Queue D} {q : Nat} {b : Buf D}
    {kept all : List (Nat × D)} (hb : WF env.inf c b kept all) (P : Edge D → Prop)
    (hk : ∀ a ∈ kept, P (q, a.1, a.2)) (hw : ∀ f ∈ w.1, P f) (hw0 : w.1 = [] → w.2 = []) :
    (∀ f ∈ (updateQueue env w q b).1, P f) ∧
      (w.1 ≠ [] ∨ kept ≠ [] → (updateQueue env w q b).1 ≠ []) ∧
      (w.1 = [] → kept = [] → updateQueue env w q b = w) := by
  have hz : List.zip b.indices b.distances = kept := by
    rw [hb.idx, hb.dst]
    clear hb hk
    induction kept with
    | nil => rfl
    | cons a l ih => simp [ih]
  have hlen : b.indices.length = kept.length := by rw [hb.idx]; simp
  have hle : kept.length ≤ c := by
    have := hb.length_le
    unfold capEff at this
    rwa [if_neg (by omega)] at this
  have hins : ∀ (l : List (Nat × D)) (w : Queue D), (∀ a ∈ l, P (q, a.1, a.2)) → (∀ f ∈ w.1, P f) →
      (∀ f ∈ (l.foldl (fun w c => (insertNew env (q, c.1, c.2) w).1) w).1, P f) ∧
      (w.1 ≠ [] → (l.foldl (fun w c => (insertNew env (q, c.1, c.2) w).1) w).1 ≠ []) := by
    intro l
    induction l with
    | nil => exact fun w _ hw => ⟨hw, fun h => h⟩
    | cons a l ih =>
      intro w hl hw
      obtain ⟨h1, h2, -⟩ := insertNew_spec (env := env) (q, a.1, a.2) w P (hl a (by simp)) hw
      obtain ⟨h3, h4⟩ := ih _ (fun a ha => hl a (by simp [ha])) h1
      exact ⟨h3, fun h => h4 (h2 h)⟩
  have hrep : ∀ (l : List (Nat × D)) (w : Queue D), (∀ a ∈ l, P (q, a.1, a.2)) → (∀ f ∈ w.1, P f) →
      (∀ f ∈ (l.foldl (replaceStep env c q) w).1, P f) ∧
      (w.1 ≠ [] → (l.foldl (replaceStep env c q) w).1 ≠ []) := by
    intro l
    induction l with
    | nil => exact fun w _ hw => ⟨hw, fun h => h⟩
    | cons a l ih =>
      intro w hl hw
      obtain ⟨h1, h2⟩ := replaceStep_spec (env := env) hc w a P (hl a (by simp)) hw
      obtain ⟨h3, h4⟩ := ih _ (fun a ha => hl a (by simp [ha])) h1
      exact ⟨h3, fun h => h4 (h2 h)⟩
  obtain ⟨s1, s2⟩ := shrink_spec (env := env) hc w.1.length w
  unfold updateQueue
  rw [hz, hlen, hb.cap_eq]
  dsimp only
  have hw1 : ∀ f ∈ (shrink env c w.1.length w).1, P f := fun f hf => hw f (s1 f hf)
  have hs0 : w.1 = [] → shrink env c w.1.length w = w := by
    intro h; rw [h]; rfl
  -- the first insertion
  have hmid : ∀ w2 : Queue D, w2 = (if (shrink env c w.1.length w).1.length + kept.length ≤ c then
        kept.foldl (fun w c => (insertNew env (q, c.1, c.2) w).1) (shrink env c w.1.length w)
      else shrink env c w.1.length w) →
      (∀ f ∈ w2.1, P f) ∧ (w.1 ≠ [] ∨ kept ≠ [] → w2.1 ≠ []) := by
    rintro w2 rfl
    split
    · obtain ⟨h1, h2⟩ := hins kept _ hk hw1
      refine ⟨h1, fun h => ?_⟩
      rcases h with h | h
      · exact h2 (s2 h)
      · by_cases h0 : w.1 = []
        · obtain ⟨a, l, rfl⟩ := List.exists_cons_of_ne_nil h
          rw [hs0 h0, List.foldl_cons]
          refine (hins l _ (fun a ha => hk a (by simp [ha])) ?_).2 ?_
          · exact (insertNew_spec (env := env) (q, a.1, a.2) w P (hk a (by simp)) hw).1
          · obtain ⟨w1, w2⟩ := w
            simp only at h0
            have := hw0 h0
            simp only at this
            subst h0 this
            simp [insertNew, Heap.push_nil]
        · exact h2 (s2 h0)
    · rename_i hgt
      refine ⟨hw1, fun h => ?_⟩
      rcases h with h | h
      · exact s2 h
      · intro h0
        rw [h0] at hgt
        simp at hgt
        omega
  obtain ⟨m1, m2⟩ := hmid _ rfl
  have m3 : w.1 = [] → kept = [] → (if (shrink env c w.1.length w).1.length + kept.length ≤ c then
        kept.foldl (fun w c => (insertNew env (q, c.1, c.2) w).1) (shrink env c w.1.length w)
      else shrink env c w.1.length w) = w := by
    intro h h'
    rw [h', hs0 h]
    split <;> rfl
  generalize (if (shrink env c w.1.length w).1.length + kept.length ≤ c then
        kept.foldl (fun w c => (insertNew env (q, c.1, c.2) w).1) (shrink env c w.1.length w)
      else shrink env c w.1.length w) = w2 at m1 m2 m3
  split
  · obtain ⟨h1, h2⟩ := hrep kept _ hk m1
    refine ⟨h1, fun h => h2 (m2 h), fun h h' => ?_⟩
    rw [m3 h h', h']
    rfl
  · exact ⟨m1, m2, m3⟩

/-! ### the bounds -/

theorem limitStep_many {bufs : Nat → Option (Buf D)} {c : Nat} (hc : 1 ≤ c)
    (hb : ∀ q b, bufs q = some b → ∃ all, WF env.inf c b [] all) {l : Limits D}
    (hl : l.closest = env.inf) (q : Nat) : (limitStep env bufs l q).closest = env.inf := by
  unfold limitStep
  cases h : bufs q with
  | none => exact hl
  | some b =>
    obtain ⟨all, hwf⟩ := hb q b h
    dsimp only
    rw [if_pos (fun h0 => by have := hwf.remaining_empty.1 h0; omega)]
    exact hl

theorem childStep_many {s : (Path → Option (Limits D)) × Limits D}
    (h1 : ∀ p l, s.1 p = some l → l.closest = env.inf) (h2 : s.2.closest = env.inf) (c : Path) :
    (∀ p l, (childStep env s c).1 p = some l → l.closest = env.inf) ∧
      (childStep env s c).2.closest = env.inf := by
  unfold childStep
  cases h : s.1 c with
  | none =>
    refine ⟨?_, h2⟩
    intro p l hp
    dsimp only at hp
    split at hp
    · injection hp with hp
      subst hp
      rfl
    · exact h1 p l hp
  | some l =>
    have hl := h1 c l h
    exact ⟨h1, by dsimp only; rw [h2, hl, min_self]⟩

theorem furthestBound_many (ok : OkMany env TQ TR cand Good) {st : State D S}
    (hst : InvMany env TQ TR cand Good st) (p : Path) (t : Tree K) :
    InvMany env TQ TR cand Good (furthestBound env st p t).1 ∧
      (furthestBound env st p t).1.visited = st.visited ∧
      (furthestBound env st p t).1.pq = st.pq ∧
      (st.pq = [] → (furthestBound env st p t).2 = env.inf) := by
  have hs : ∃ s : (Path → Option (Limits D)) × Limits D,
      furthestBound env st p t = ({ st with limits := fun r => if r = p then some s.2 else s.1 r },
        adjustedBound env s.2 (env.diam t)) ∧
      (st.pq = [] → (∀ p l, s.1 p = some l → l.closest = env.inf) ∧ s.2.closest = env.inf) := by
    have hl : st.pq = [] → (updateBoundsLimits env st p t).closest = env.inf := by
      intro hpq
      have hb : ∀ q b, st.bufs q = some b → ∃ all, WF env.inf env.capacity b [] all := by
        intro q b h
        obtain ⟨kept, all, h1, -, h2⟩ := hst.bufs q b h
        rw [h2 hpq] at h1
        exact ⟨all, h1⟩
      unfold updateBoundsLimits
      have h0 : ((st.limits p).getD (limits0 env)).closest = env.inf := by
        cases h : st.limits p with
        | none => rfl
        | some l => exact hst.lims hpq p l h
      generalize (st.limits p).getD (limits0 env) = l at h0
      induction t.own generalizing l with
      | nil => exact h0
      | cons q qs ih => exact ih _ (limitStep_many ok.cap_pos hb h0 q)
    cases t with
    | leaf => exact ⟨_, rfl, fun h => ⟨hst.lims h, hl h⟩⟩
    | node =>
      refine ⟨_, rfl, fun h => ?_⟩
      have a := childStep_many (s := (st.limits, _)) (hst.lims h) (hl h) (p ++ [false])
      exact childStep_many a.1 a.2 (p ++ [true])
  obtain ⟨s, e, hs⟩ := hs
  rw [e]
  refine ⟨⟨hst.good, hst.queue, hst.bufs, ?_⟩, rfl, rfl, ?_⟩
  · intro hpq r l hr
    dsimp only at hr
    split at hr
    · injection hr with hr
      subst hr
      exact (hs hpq).2
    · exact (hs hpq).1 r l hr
  · intro hpq
    show adjustedBound env s.2 (env.diam t) = env.inf
    unfold adjustedBound
    rw [if_neg]
    rw [(hs hpq).2]
    exact not_lt.2 (ok.inf _)

/-! ### searching the samples of two nodes -/

theorem searchBuffer_many (ok : OkMany env TQ TR cand Good) {q : Nat} (hq : q ∈ TQ.indices)
    (is : List Nat) (his : ∀ i ∈ is, i ∈ TR.indices) :
    ∀ (s : S) (b : Buf D) (kept all : List (Nat × D)), Good s → WF env.inf env.capacity b kept all →
    (∀ a ∈ kept, ValidEdge TQ TR cand (q, a.1, a.2)) →
    ∃ s' b' kept' all', searchBuffer env q is s b = some (s', b') ∧ Good s' ∧
      WF env.inf env.capacity b' kept' all' ∧ (∀ a ∈ kept', ValidEdge TQ TR cand (q, a.1, a.2)) ∧
      (all ≠ [] → all' ≠ []) ∧ ∀ i ∈ is, ∀ d, cand q i = some d → all' ≠ [] := by
  induction is with
  | nil => exact fun s b kept all hs hb hk => ⟨s, b, kept, all, rfl, hs, hb, hk, fun h => h, by simp⟩
  | cons i is ih =>
    intro s b kept all hs hb hk
    have hi : i ∈ TR.indices := his i (by simp)
    cases hc : cand q i with
    | none =>
      obtain ⟨s1, hs1, e1⟩ := ok.off q hq s hs b b i hi (by simp [Buf.offer, hc])
      obtain ⟨s2, b2, k2, a2, e2, h1, h2, h3, h4, h5⟩ := ih (fun j hj => his j (by simp [hj])) s1 b kept all
        hs1 hb hk
      refine ⟨s2, b2, k2, a2, ?_, h1, h2, h3, h4, ?_⟩
      · rw [searchBuffer, e1]; exact e2
      · intro j hj d hd
        rcases List.mem_cons.1 hj with rfl | hj
        · rw [hc] at hd; cases hd
        · exact h5 j hj d hd
    | some d =>
      obtain ⟨b1, k1, e0, hb1, hk1⟩ := update_spec hb i d
      obtain ⟨s1, hs1, e1⟩ := ok.off q hq s hs b b1 i hi (by simp [Buf.offer, hc, e0])
      obtain ⟨s2, b2, k2, a2, e2, h1, h2, h3, h4, h5⟩ := ih (fun j hj => his j (by simp [hj])) s1 b1 k1 _
        hs1 hb1 (by
          intro a ha
          rcases hk1 a ha with ha | rfl
          · exact hk a ha
          · exact ⟨hq, hi, hc⟩)
      refine ⟨s2, b2, k2, a2, ?_, h1, h2, h3, fun _ => h4 (by simp), fun _ _ _ _ => h4 (by simp)⟩
      rw [searchBuffer, e1]; exact e2

theorem kept_ne_nil {inf : D} {cap : Nat} {b : Buf D} {kept all : List (Nat × D)}
    (h : WF inf cap b kept all) (hne : all ≠ []) : kept ≠ [] := by
  intro hk
  have := h.best.2
  rw [hk] at this
  have h1 := capEff_pos cap
  have h2 := List.length_pos_iff.2 hne
  simp at this
  omega

theorem searchQuery_many (ok : OkMany env TQ TR cand Good) {st : State D S}
    (hst : InvMany env TQ TR cand Good st ∧ (st.pq = [] → st.inPq = [])) {q : Nat} (hq : q ∈ TQ.indices)
    {is : List Nat} (his : ∀ i ∈ is, i ∈ TR.indices) :
    ∃ st', searchQuery env st is q = some st' ∧
      (InvMany env TQ TR cand Good st' ∧ (st'.pq = [] → st'.inPq = [])) ∧
      st'.visited = st.visited ∧ (st.pq ≠ [] → st'.pq ≠ []) ∧
      ∀ i ∈ is, ∀ d, cand q i = some d → st'.pq ≠ [] := by
  obtain ⟨hst, hin⟩ := hst
  have hb : ∃ b kept all, (st.bufs q).getD (mk env.inf env.capacity) = b ∧
      WF env.inf env.capacity b kept all ∧ ∀ a ∈ kept, ValidEdge TQ TR cand (q, a.1, a.2) := by
    cases h : st.bufs q with
    | none => exact ⟨_, [], [], rfl, WF.init _ _ ok.cap_lt, by simp⟩
    | some b =>
      obtain ⟨kept, all, h1, h2, -⟩ := hst.bufs q b h
      exact ⟨b, kept, all, rfl, h1, h2⟩
  obtain ⟨b, kept, all, eb, hwf, hk⟩ := hb
  obtain ⟨s', b', kept', all', e, hs', hwf', hk', -, hcov⟩ :=
    searchBuffer_many ok hq is his st.shared b kept all hst.good hwf hk
  obtain ⟨hu1, hu2, hu3⟩ := updateQueue_many (env := env) (w := (st.pq, st.inPq)) (q := q) ok.cap_pos ok.cap_lt
    hwf' (ValidEdge TQ TR cand) hk' hst.queue hin
  refine ⟨{ st with shared := s', bufs := fun r => if r = q then some b' else st.bufs r,
                    pq := (updateQueue env (st.pq, st.inPq) q b').1,
                    inPq := (updateQueue env (st.pq, st.inPq) q b').2 },
    by rw [searchQuery, eb, e]; rfl, ⟨⟨hs', hu1, ?_, ?_⟩, ?_⟩, rfl, fun h => hu2 (Or.inl h), ?_⟩
  · intro r b hr
    dsimp only at hr ⊢
    have hback : (updateQueue env (st.pq, st.inPq) q b').1 = [] → st.pq = [] ∧ kept' = [] := by
      intro h
      by_contra hne
      refine hu2 ?_ h
      by_cases h0 : st.pq = []
      · exact Or.inr (fun h' => hne ⟨h0, h'⟩)
      · exact Or.inl h0
    split at hr
    · rename_i h
      subst h
      injection hr with hr
      subst hr
      exact ⟨kept', all', hwf', hk', fun h => (hback h).2⟩
    · obtain ⟨k1, a1, h1, h2, h3⟩ := hst.bufs r b hr
      exact ⟨k1, a1, h1, h2, fun h => h3 (hback h).1⟩
  · intro h
    refine hst.lims ?_
    by_contra h0
    exact hu2 (Or.inl h0) h
  · intro h
    dsimp only at h ⊢
    have h0 : st.pq = [] := by
      by_contra h0
      exact hu2 (Or.inl h0) h
    have h1 : kept' = [] := by
      by_contra h1
      exact hu2 (Or.inr h1) h
    rw [hu3 h0 h1]
    exact hin h0
  · intro i hi d hd
    exact hu2 (Or.inr (kept_ne_nil hwf' (hcov i hi d hd)))

/-- The search with any number of neighbours: an admissible pair is covered when the queue is not
empty. -/
theorem sys_many (ok : OkMany env TQ TR cand Good) :
    Sys env TQ TR (fun st => InvMany env TQ TR cand Good st ∧ (st.pq = [] → st.inPq = []))
      (fun st a b => ∀ d, cand a b = some d → st.pq ≠ []) where
  vis := fun st v h => ⟨⟨h.1.good, h.1.queue, h.1.bufs, h.1.lims⟩, h.2⟩
  visC := fun st v a b h => h
  cost := by
    intro st hst p p' tq tr hq hr c hc
    obtain ⟨h1, h2, h3, h4⟩ := furthestBound_many ok hst.1 p tq
    refine ⟨⟨h1, hst.2⟩, h2, fun a b h d hd => h d hd, ?_, ?_⟩
    · intro h sq sr e1 e2 a ha b hb d hd hpq
      simp only [updateCost] at h
      split at h
      · rename_i hlt
        have h5 := h4 hpq
        rw [h5] at hlt
        exact absurd hlt (not_lt.2 (ok.inf _))
      · cases h
    · intro d h
      simp only [updateCost] at h
      split at h
      · cases h
      · injection h with h
        exact h.symm
  search := by
    intro is his qs
    induction qs with
    | nil => exact fun _ st hst => ⟨st, rfl, hst, rfl, Later.refl _ _, by simp⟩
    | cons q qs ih =>
      intro hqs st hst
      obtain ⟨st1, e1, h1, hv1, hb1, hc1⟩ := searchQuery_many ok hst (hqs q (by simp)) his
      obtain ⟨st2, e2, h2, hv2, hb2, hc2⟩ := ih (fun r hr => hqs r (by simp [hr])) st1 h1
      refine ⟨st2, ?_, h2, hv2.trans hv1, fun a b h d hd => hb2 a b (fun _ _ => hb1 (h d hd)) d hd, ?_⟩
      · rw [searchQueries, List.foldlM_cons, e1]
        exact e2
      · intro r hr i hi d hd
        rcases List.mem_cons.1 hr with rfl | hr
        · exact hb2 r i (hc1 i hi) d hd
        · exact hc2 r hr i hi d hd

/-- The result of the search with any number of neighbours. -/
theorem dualSearch_many (ok : OkMany env TQ TR cand Good) {s : S} (hs : Good s) :
    (∃ (s' : S) (e : Edge D), dualSearch env s TQ TR = some (s', e) ∧ Good s' ∧ ValidEdge TQ TR cand e) ∨
    (dualSearch env s TQ TR = none ∧ ∀ a ∈ TQ.indices, ∀ b ∈ TR.indices, cand a b = none) := by
  obtain ⟨f, hf⟩ : ∃ f, Search.nodeCount TQ + Search.nodeCount TR = f + 1 := by
    have : 1 ≤ Search.nodeCount TQ := by cases TQ <;> simp [Search.nodeCount]
    exact ⟨Search.nodeCount TQ + Search.nodeCount TR - 1, by omega⟩
  obtain ⟨st, e, hinv, -, hcov, -⟩ := traverse_sys (sys_many ok) f (start s) [] TQ [] TR none false
    ⟨⟨hs, by simp [start], fun q b h => (by cases h), fun _ p l h => (by cases h)⟩, fun _ => rfl⟩
    (nodeAt_nil TQ) (nodeAt_nil TR) (by omega) (fun u hu => by cases hu) (fun c hc => by cases hc)
  unfold dualSearch
  rw [hf, e]
  cases hp : st.pq with
  | nil =>
    right
    refine ⟨by simp [hp], fun a ha b hb => ?_⟩
    cases hc : cand a b with
    | none => rfl
    | some d => exact absurd hp (hcov TQ TR (nodeAt_nil TQ) (nodeAt_nil TR) a ha b hb d hc)
  | cons x l =>
    left
    refine ⟨st.shared, x, by simp [hp], hinv.1.good, hinv.1.queue x (by simp [hp])⟩

end Verif.DualTree
