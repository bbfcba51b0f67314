import Verif.Spec.Parallel
import Mathlib.Algebra.BigOperators.Group.Finset.Basic
import Mathlib.Algebra.BigOperators.Group.Finset.Sigma

/-
Threads with disjoint write sets: no data race, and one result.
-/

namespace Verif.Parallel

open Classical in
/-- What a thread sees: its own writes and otherwise the memory at the start. -/
noncomputable def view {L : Type} {V : L → Type} (W : L → Prop) (m0 m : Mem V) : Mem V :=
  fun l => if W l then m l else m0 l

section

variable {L : Type} [DecidableEq L] {V : L → Type} {A : Type}

/-- A thread alone. -/
def Prog.run : Prog V A → Mem V → A × Mem V
  | .ret a, m => (a, m)
  | .read l k, m => (k (m l)).run m
  | .write l v k, m => k.run (Function.update m l v)

/-- The number of accesses of a thread alone. -/
def Prog.cost : Prog V A → Mem V → Nat
  | .ret _, _ => 0
  | .read l k, m => (k (m l)).cost m + 1
  | .write l v k, m => k.cost (Function.update m l v) + 1

/-- All reads are in `R` and all writes in `W`, whatever is read. -/
def Prog.Within (R W : L → Prop) : Prog V A → Prop
  | .ret _ => True
  | .read l k => R l ∧ ∀ v, (k v).Within R W
  | .write l _ k => W l ∧ k.Within R W

/-- No thread writes what another one reads or writes. -/
def Apart (R W : Nat → L → Prop) : Prop := ∀ i j l, i ≠ j → W i l → ¬ W j l ∧ ¬ R j l

/-- The invariant of an execution of the threads `ts0` from the memory `m0` after `n` accesses. -/
structure ParInv (R W : Nat → L → Prop) (ts0 : List (Prog V A)) (m0 : Mem V) (n : Nat) (c : Config V A) :
    Prop where
  len : c.1.length = ts0.length
  within : ∀ i (p : Prog V A), c.1[i]? = some p → p.Within (R i) (W i)
  run : ∀ i (p p0 : Prog V A), c.1[i]? = some p → ts0[i]? = some p0 → p.run (view (W i) m0 c.2) = p0.run m0
  other : ∀ l, (∀ j, ¬ W j l) → c.2 l = m0 l
  cost : n + ∑ i ∈ Finset.range ts0.length, (c.1[i]?.elim 0 fun p => p.cost (view (W i) m0 c.2)) =
    ∑ i ∈ Finset.range ts0.length, (ts0[i]?.elim 0 fun p => p.cost m0)

theorem view_self (W : L → Prop) (m : Mem V) : view W m m = m := by
  funext l; simp [view]

theorem view_update_mem {W : L → Prop} {l : L} (h : W l) (m0 m : Mem V) (v : V l) :
    view W m0 (Function.update m l v) = Function.update (view W m0 m) l v := by
  funext l'
  by_cases hl : l' = l
  · subst hl; simp [view, h]
  · simp [view, Function.update_of_ne hl]

theorem view_update_not_mem {W : L → Prop} {l : L} (h : ¬ W l) (m0 m : Mem V) (v : V l) :
    view W m0 (Function.update m l v) = view W m0 m := by
  funext l'
  by_cases hl : l' = l
  · subst hl; simp [view, h]
  · simp [view, Function.update_of_ne hl]

variable {R W : Nat → L → Prop} {ts0 : List (Prog V A)} {m0 : Mem V}

theorem ParInv.init (hw : ∀ i (p : Prog V A), ts0[i]? = some p → p.Within (R i) (W i)) :
    ParInv R W ts0 m0 0 (ts0, m0) where
  len := rfl
  within := hw
  run := by
    intro i p p0 h1 h2
    simp only at h1
    rw [h1] at h2
    rw [view_self, Option.some.inj h2]
  other := fun _ _ => rfl
  cost := by simp only [view_self, Nat.zero_add]

theorem ParInv.step (ha : Apart R W) {n : Nat} {c d : Config V A} (hc : ParInv R W ts0 m0 n c)
    (hs : Step c d) : ParInv R W ts0 m0 (n + 1) d := by
  obtain ⟨i, p, p', hp, hact⟩ := hs
  rename_i ts m m'
  have hi : i < ts.length := (List.getElem?_eq_some_iff.1 hp).1
  have hi0 : i < ts0.length := hc.len ▸ hi
  have hwi := hc.within i p hp
  have hget : (ts.set i p')[i]? = some p' := List.getElem?_set_self hi
  have hother : ∀ j, j ≠ i → (ts.set i p')[j]? = ts[j]? := fun j hj => List.getElem?_set_ne (Ne.symm hj)
  -- what the access does to the thread and to the memory
  have key : p'.Within (R i) (W i) ∧ p'.run (view (W i) m0 m') = p.run (view (W i) m0 m) ∧
      p'.cost (view (W i) m0 m') + 1 = p.cost (view (W i) m0 m) ∧
      (∀ j, j ≠ i → view (W j) m0 m' = view (W j) m0 m) ∧ (∀ l, ¬ W i l → m' l = m l) := by
    cases p with
    | ret a => exact absurd hact (by simp [act])
    | read l k =>
      simp only [act, Option.some.injEq, Prod.mk.injEq] at hact
      obtain ⟨rfl, rfl⟩ := hact
      have hv : view (W i) m0 m l = m l := by
        unfold view
        split
        · rfl
        · rename_i hwl
          refine (hc.other l fun j hj => ?_).symm
          by_cases hji : j = i
          · exact hwl (hji ▸ hj)
          · exact (ha j i l hji hj).2 hwi.1
      refine ⟨hwi.2 _, ?_, ?_, fun _ _ => rfl, fun _ _ => rfl⟩
      · simp only [Prog.run, hv]
      · simp only [Prog.cost, hv]
    | write l v k =>
      simp only [act, Option.some.injEq, Prod.mk.injEq] at hact
      obtain ⟨rfl, rfl⟩ := hact
      refine ⟨hwi.2, ?_, ?_, ?_, ?_⟩
      · rw [view_update_mem hwi.1]; rfl
      · rw [view_update_mem hwi.1]; rfl
      · intro j hj
        exact view_update_not_mem (ha i j l (Ne.symm hj) hwi.1).1 _ _ _
      · intro l' hl'
        exact Function.update_of_ne (by rintro rfl; exact hl' hwi.1) _ _
  obtain ⟨k1, k2, k3, k4, k5⟩ := key
  refine ⟨by simpa using hc.len, ?_, ?_, ?_, ?_⟩
  · intro j q hq
    by_cases hji : j = i
    · subst hji
      rw [hget] at hq
      rw [← Option.some.inj hq]; exact k1
    · rw [hother j hji] at hq
      exact hc.within j q hq
  · intro j q q0 hq hq0
    by_cases hji : j = i
    · subst hji
      rw [hget] at hq
      rw [← Option.some.inj hq, k2]
      exact hc.run j p q0 hp hq0
    · rw [hother j hji] at hq
      simp only
      rw [k4 j hji]
      exact hc.run j q q0 hq hq0
  · intro l hl
    simp only
    rw [k5 l (hl i)]
    exact hc.other l hl
  · have h0 := hc.cost
    have hmem : i ∈ Finset.range ts0.length := Finset.mem_range.2 hi0
    rw [← h0, ← Finset.add_sum_erase _ _ hmem, ← Finset.add_sum_erase (Finset.range ts0.length)
      (fun i => (ts[i]?).elim 0 fun p => p.cost (view (W i) m0 m)) hmem]
    simp only [hget, hp, Option.elim_some]
    have : ∑ x ∈ (Finset.range ts0.length).erase i,
        ((ts.set i p')[x]?.elim 0 fun p => p.cost (view (W x) m0 m')) =
        ∑ x ∈ (Finset.range ts0.length).erase i, (ts[x]?.elim 0 fun p => p.cost (view (W x) m0 m)) := by
      refine Finset.sum_congr rfl fun x hx => ?_
      have hxi := Finset.ne_of_mem_erase hx
      rw [hother x hxi, k4 x hxi]
    rw [this]
    omega

theorem ParInv.steps (ha : Apart R W) (hw : ∀ i (p : Prog V A), ts0[i]? = some p → p.Within (R i) (W i)) {n : Nat}
    {c : Config V A} (h : Steps n (ts0, m0) c) : ParInv R W ts0 m0 n c := by
  generalize hc0 : (ts0, m0) = c0 at h
  induction h with
  | refl c => subst hc0; exact ParInv.init hw
  | tail _ hs ih => exact (ih hc0).step ha hs

theorem ParInv.no_race (ha : Apart R W) {n : Nat} {c : Config V A} (hc : ParInv R W ts0 m0 n c) :
    ¬ Race c := by
  rintro ⟨i, j, p, q, l, w, w', hij, hp, hq, hpn, hqn, hww⟩
  have h1 := hc.within i p hp
  have h2 := hc.within j q hq
  have f : ∀ (r : Prog V A) (k : Nat), r.Within (R k) (W k) → ∀ w, r.next = some (l, w) →
      (w = true → W k l) ∧ (W k l ∨ R k l) := by
    intro r k hr w hn
    cases r with
    | ret a => simp [Prog.next] at hn
    | read l' f =>
      simp only [Prog.next, Option.some.injEq, Prod.mk.injEq] at hn
      obtain ⟨rfl, rfl⟩ := hn
      exact ⟨by simp, Or.inr hr.1⟩
    | write l' v f =>
      simp only [Prog.next, Option.some.injEq, Prod.mk.injEq] at hn
      obtain ⟨rfl, rfl⟩ := hn
      exact ⟨fun _ => hr.1, Or.inl hr.1⟩
  obtain ⟨a1, a2⟩ := f p i h1 w hpn
  obtain ⟨b1, b2⟩ := f q j h2 w' hqn
  rcases hww with h | h
  · obtain ⟨x, y⟩ := ha i j l hij (a1 h)
    exact b2.elim x y
  · obtain ⟨x, y⟩ := ha j i l (Ne.symm hij) (b1 h)
    exact a2.elim x y

/-- At the end of every execution each thread has the result it has alone, its locations have the
values they get from the thread alone, and the other locations are unchanged. -/
theorem ParInv.finished {n : Nat} {c : Config V A} (hc : ParInv R W ts0 m0 n c) (hf : Finished c) :
    c.1 = ts0.map (fun p => .ret (p.run m0).1) ∧
    (∀ i (p : Prog V A) l, ts0[i]? = some p → W i l → c.2 l = (p.run m0).2 l) ∧
    (∀ l, (∀ j, ¬ W j l) → c.2 l = m0 l) ∧
    n = ∑ i ∈ Finset.range ts0.length, (ts0[i]?.elim 0 fun p => p.cost m0) := by
  have key : ∀ i p0, ts0[i]? = some p0 → ∃ a, c.1[i]? = some (.ret a) ∧
      (a, view (W i) m0 c.2) = p0.run m0 := by
    intro i p0 h0
    have hi : i < c.1.length := by
      rw [hc.len]; exact (List.getElem?_eq_some_iff.1 h0).1
    obtain ⟨a, ha⟩ := hf c.1[i] (List.getElem_mem hi)
    have hg : c.1[i]? = some (.ret a) := by rw [List.getElem?_eq_getElem hi, ha]
    exact ⟨a, hg, hc.run i _ p0 hg h0⟩
  refine ⟨?_, ?_, hc.other, ?_⟩
  · apply List.ext_getElem?
    intro i
    rw [List.getElem?_map]
    cases h0 : ts0[i]? with
    | none =>
      rw [List.getElem?_eq_none (hc.len ▸ List.getElem?_eq_none_iff.1 h0)]
      rfl
    | some p0 =>
      obtain ⟨a, hg, e⟩ := key i p0 h0
      rw [hg, Option.map_some, ← e]
  · intro i p l h0 hw
    obtain ⟨a, _, e⟩ := key i p h0
    rw [← e]
    simp [view, hw]
  · rw [← hc.cost]
    have : ∑ i ∈ Finset.range ts0.length, (c.1[i]?.elim 0 fun p => p.cost (view (W i) m0 c.2)) = 0 := by
      refine Finset.sum_eq_zero fun i hi => ?_
      obtain ⟨a, hg, _⟩ := key i _ (List.getElem?_eq_getElem (Finset.mem_range.1 hi))
      rw [hg]
      rfl
    omega

/-- An execution that has not ended can go on. -/
theorem progress (c : Config V A) (h : ¬ Finished c) : ∃ d, Step c d := by
  simp only [Finished, not_forall] at h
  obtain ⟨p, hp, hne⟩ := h
  obtain ⟨i, hi⟩ := List.getElem?_of_mem hp
  obtain ⟨ts, m⟩ := c
  cases p with
  | ret a => exact absurd ⟨a, rfl⟩ hne
  | read l k => exact ⟨_, Step.mk (m := m) (m' := m) i _ _ hi rfl⟩
  | write l v k => exact ⟨_, Step.mk (m := m) i _ _ hi rfl⟩

theorem ParInv.in_range {n : Nat} {c : Config V A} (hc : ParInv R W ts0 m0 n c) {p : Prog V A}
    (hp : p ∈ c.1) {l : L} {w : Bool} (hn : p.next = some (l, w)) : ∃ i < ts0.length, R i l ∨ W i l := by
  obtain ⟨i, hi⟩ := List.getElem?_of_mem hp
  have hw := hc.within i p hi
  have hl : i < ts0.length := hc.len ▸ (List.getElem?_eq_some_iff.1 hi).1
  cases p with
  | ret a => simp [Prog.next] at hn
  | read l' f =>
    simp only [Prog.next, Option.some.injEq, Prod.mk.injEq] at hn
    obtain ⟨rfl, rfl⟩ := hn
    exact ⟨i, hl, Or.inl hw.1⟩
  | write l' v f =>
    simp only [Prog.next, Option.some.injEq, Prod.mk.injEq] at hn
    obtain ⟨rfl, rfl⟩ := hn
    exact ⟨i, hl, Or.inr hw.1⟩

/-- Threads with separate footprints are correct with the results of the threads alone. -/
theorem correct_of_apart (ha : Apart R W) (hw : ∀ i (p : Prog V A), ts0[i]? = some p → p.Within (R i) (W i))
    {In : L → Prop} (hin : ∀ i l, i < ts0.length → R i l ∨ W i l → In l) {Post : Config V A → Prop}
    (hpost : ∀ d : Config V A, d.1 = ts0.map (fun p => .ret (p.run m0).1) →
      (∀ i (p : Prog V A) l, ts0[i]? = some p → W i l → d.2 l = (p.run m0).2 l) →
      (∀ l, (∀ j, ¬ W j l) → d.2 l = m0 l) → Post d) : Correct (ts0, m0) In Post where
  race_free := fun _ _ h => (ParInv.steps ha hw h).no_race ha
  in_range := by
    intro n d h p hp l w hn
    obtain ⟨i, hi, hl⟩ := (ParInv.steps ha hw h).in_range hp hn
    exact hin i l hi hl
  terminates := ⟨_, fun n d h => (ParInv.steps (m0 := m0) ha hw h).cost ▸ Nat.le_add_right _ _⟩
  result := by
    intro n d h hf
    obtain ⟨h1, h2, h3, _⟩ := (ParInv.steps ha hw h).finished hf
    exact hpost d h1 h2 h3

end

end Verif.Parallel
