import Verif.Lemmas.UnionFind

/-
Properties C01, C02, C03: `ffcl::datastruct::UnionFind`.
-/

namespace Verif.UF

/-- **C01.** After any history of valid `find`/`merge` calls on a fresh union-find of `n`
samples, the history ran without an out-of-range access, and two further `find` calls (in
sequence, as a client would make them) return equal values exactly when the two samples are
connected through the merged pairs. -/
theorem C01_find_eq_iff_together (n : Nat) (ops : List Op) (hv : ∀ op ∈ ops, op.Valid n) :
    ∃ s, run (init n) ops = some s ∧
      ∀ a b, a < n → b < n → ∃ s1 ra s2 rb,
        find s a = some (s1, ra) ∧ find s1 b = some (s2, rb) ∧ (ra = rb ↔ Together ops a b) := by
  obtain ⟨s, rep, h1, h2, h3⟩ := run_init_spec n ops hv
  refine ⟨s, h1, fun a b ha hb => ?_⟩
  obtain ⟨s1, e1, inv1, _⟩ := find_spec h2 ha
  obtain ⟨s2, e2, _, _⟩ := find_spec inv1 hb
  exact ⟨s1, rep a, s2, rep b, e1, e2, h3 a b⟩

/-- **C02 (find).** On every reachable state, `find` returns a member of the set of its
argument, and performing it does not change the answer of any later `find`. -/
theorem C02_find_pure (n : Nat) (ops : List Op) (hv : ∀ op ∈ ops, op.Valid n) (a : Nat)
    (ha : a < n) :
    ∃ s s1 ra, run (init n) ops = some s ∧ find s a = some (s1, ra) ∧
      ra < n ∧ Together ops a ra ∧
      (find s ra).map Prod.snd = some ra ∧
      ∀ b, b < n → (find s1 b).map Prod.snd = (find s b).map Prod.snd ∧
        (find s b).map Prod.snd ≠ none := by
  obtain ⟨s, rep, h1, h2, h3⟩ := run_init_spec n ops hv
  obtain ⟨s1, e1, inv1, _⟩ := find_spec h2 ha
  have hr : rep (rep a) = rep a := h2.uniq _ (h2.root a ha).2
  have hlt := Inv.rep_lt h2 ha
  refine ⟨s, s1, rep a, h1, e1, hlt, (h3 _ _).1 hr.symm, ?_, fun b hb => ?_⟩
  · obtain ⟨_, e, _, _⟩ := find_spec h2 hlt
    simp [e, hr]
  · obtain ⟨_, e2, _, _⟩ := find_spec h2 hb
    obtain ⟨_, e3, _, _⟩ := find_spec inv1 hb
    simp [e2, e3]

/-- **C02 (merge).** On every reachable state, `merge(a, b)` returns one of the two old
representatives; afterwards `find` returns that value for every sample of the two merged sets
and the old value for every other sample. -/
theorem C02_merge_representative (n : Nat) (ops : List Op) (hv : ∀ op ∈ ops, op.Valid n)
    (a b : Nat) (ha : a < n) (hb : b < n) :
    ∃ s s1 c, run (init n) ops = some s ∧ merge s a b = some (s1, c) ∧
      ((find s a).map Prod.snd = some c ∨ (find s b).map Prod.snd = some c) ∧
      ∀ x, x < n →
        (find s1 x).map Prod.snd =
          if (find s x).map Prod.snd = (find s a).map Prod.snd ∨
             (find s x).map Prod.snd = (find s b).map Prod.snd
          then some c else (find s x).map Prod.snd := by
  obtain ⟨s, rep, h1, h2, h3⟩ := run_init_spec n ops hv
  obtain ⟨s1, c, d, e1, hcd, inv1⟩ := merge_spec h2 ha hb
  obtain ⟨_, fa, _, _⟩ := find_spec h2 ha
  obtain ⟨_, fb, _, _⟩ := find_spec h2 hb
  refine ⟨s, s1, c, h1, e1, ?_, fun x hx => ?_⟩
  · rcases hcd with ⟨rfl, _⟩ | ⟨rfl, _⟩
    · left; simp [fa]
    · right; simp [fb]
  · obtain ⟨_, fx, _, _⟩ := find_spec h2 hx
    obtain ⟨_, fx1, _, _⟩ := find_spec inv1 hx
    simp only [fx, fx1, fa, fb, Option.map_some, Option.some.injEq]
    rcases hcd with ⟨rfl, rfl⟩ | ⟨rfl, rfl⟩
    · by_cases h' : rep x = rep b
      · simp [h']
      · by_cases h'' : rep x = rep a <;> simp [h', h'']
    · by_cases h' : rep x = rep a
      · simp [h']
      · by_cases h'' : rep x = rep b <;> simp [h', h'']

open Classical in
/-- **C03.** On every reachable state and for every valid index, the loop of `find` stops
after at most `log2` of the size of the set of the argument many iterations (the fuel counts
evaluations of the loop condition, one more than the iterations), with the answer of `find`. -/
theorem C03_find_log_steps (n : Nat) (ops : List Op) (hv : ∀ op ∈ ops, op.Valid n) (a : Nat)
    (ha : a < n) :
    ∃ s s1 ra, run (init n) ops = some s ∧ find s a = some (s1, ra) ∧
      ∃ ps, findLoop
        (Nat.log 2 ((Finset.range n).filter (fun x => Together ops a x)).card + 1)
        s.parents a = some (ps, ra) := by
  obtain ⟨s, rep, h1, h2, h3⟩ := run_init_spec n ops hv
  obtain ⟨s1, e1, _, _⟩ := find_spec h2 ha
  obtain ⟨k, hk⟩ := Inv.exists_rank h2 (Inv.rep_lt h2 ha)
  obtain ⟨r, hr⟩ := Inv.exists_rank h2 ha
  have hlog := Inv.rank_root_le_log h2 ha hk
  have hset : (Finset.range n).filter (fun x => Together ops a x) =
      (Finset.range n).filter (fun j => rep j = rep a) := by
    ext j; simp only [Finset.mem_filter]
    rw [← h3]; exact and_congr_right fun _ => eq_comm
  obtain ⟨ps, e, _⟩ := findLoop_spec
    (Nat.log 2 ((Finset.range n).filter (fun x => Together ops a x)).card + 1)
    s.parents a r k h2 ha hr hk (by rw [hset]; omega)
  exact ⟨s, s1, rep a, h1, e1, ps, e⟩

/-! Non-vacuity: a concrete valid history with two non-trivial classes. -/

example : (∀ op ∈ [Op.merge 0 1, .merge 2 3, .find 3, .merge 3 1], op.Valid 5) := by
  simp [Op.Valid]

example : (run (init 5) [Op.merge 0 1, .merge 2 3, .find 3, .merge 3 1]).map
    (fun s => ((find s 0).map Prod.snd, (find s 1).map Prod.snd, (find s 4).map Prod.snd)) =
    some (some 2, some 2, some 4) := by decide

end Verif.UF
