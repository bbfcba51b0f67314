import Verif.Lemmas.ParallelFind
import Verif.Props.UnionFind

/-
C95: concurrent calls of the `const` method `UnionFind::find`.
-/

namespace Verif.Parallel

open UF

/-- C95 (calls of a `const` method can run concurrently): false.  After every history two concurrent
calls `find(a)` have a data race for every sample `a` that is not its own representative, which is
undefined behaviour. -/
theorem C95_find_race_counterexample (n : Nat) (ops : List Op) (hv : ∀ op ∈ ops, op.Valid n) :
    ∃ s, run (init n) ops = some s ∧ ∀ a < n, (find s a).map Prod.snd ≠ some a → ∀ fuel,
      ∃ k d, Steps k ([findProg (fuel + 1) a, findProg (fuel + 1) a], fun i => s.parents.getD i 0) d ∧
        Race d := by
  obtain ⟨s, rep, h1, h2, _⟩ := run_init_spec n ops hv
  refine ⟨s, h1, fun a ha hne fuel => ?_⟩
  obtain ⟨s', e, _, _⟩ := find_spec h2 ha
  generalize hm : (fun i => s.parents.getD i 0 : Nat → Nat) = m
  have hpar : s.parents[a]? = some (m a) := by
    obtain ⟨p, hp⟩ := Inv.exists_par h2 ha
    rw [← hm]; simp [hp]
  have hma : a ≠ m a := by
    intro h
    apply hne
    rw [e]
    have : rep a = a := Inv.uniq h2 a (by rw [hpar, ← h])
    simp [this]
  let p3 : Prog (fun _ : Nat => Nat) (Option Nat) := .write a (m (m a)) (findProg fuel (m a))
  let p2 : Prog (fun _ : Nat => Nat) (Option Nat) := .read (m a) fun g => .write a g (findProg fuel (m a))
  let p1 : Prog (fun _ : Nat => Nat) (Option Nat) := .read a fun temp => .read temp fun g =>
    .write a g (findProg fuel temp)
  let p0 := findProg (fuel + 1) a
  have s1 : Step (V := fun _ : Nat => Nat) ([p0, p0], m) ([p1, p0], m) :=
    Step.mk 0 p0 p1 rfl (by simp [p0, p1, findProg, act, hma])
  have s2 : Step (V := fun _ : Nat => Nat) ([p1, p0], m) ([p2, p0], m) := Step.mk 0 p1 p2 rfl rfl
  have s3 : Step (V := fun _ : Nat => Nat) ([p2, p0], m) ([p3, p0], m) := Step.mk 0 p2 p3 rfl rfl
  exact ⟨3, ([p3, p0], m), (((Steps.refl _).tail s1).tail s2).tail s3, 0, 1, p3, p0, a, true, false,
    by decide, rfl, rfl, rfl, rfl, Or.inl rfl⟩

/-- C95, what holds when every access is atomic and sequentially consistent (the code does not ask for
this): for every number of concurrent calls after every history and for every schedule, no access is out
of range, `m` calls together make at most `4 * m * fuel` accesses for any `fuel > log2 n`, at every
moment the parents represent the same sets with the same representatives, and every call
returns what it returns alone. -/
theorem C95_find_interleaved_partial (n : Nat) (ops : List Op) (hv : ∀ op ∈ ops, op.Valid n) :
    ∃ s, run (init n) ops = some s ∧ ∀ starts : List Nat, (∀ a ∈ starts, a < n) →
      ∀ fuel, Nat.log 2 n < fuel → ∀ k d,
      Steps k (starts.map (findProg fuel), fun i => s.parents.getD i 0) d →
      k ≤ starts.length * (4 * fuel) ∧
      (∀ p ∈ d.1, ∀ l w, p.next = some (l, w) → l < n) ∧
      (∀ b < n, (find { s with parents := (List.range n).map d.2 } b).map Prod.snd =
        (find s b).map Prod.snd) ∧
      (Finished d → ∀ (i a : Nat), starts[i]? = some a →
        ∃ r, (find s a).map Prod.snd = some r ∧ d.1[i]? = some (.ret (some r))) := by
  obtain ⟨s, rep, h1, h2, _⟩ := run_init_spec n ops hv
  refine ⟨s, h1, fun starts hs fuel hf k d hst => ?_⟩
  have hm : UF.Inv n (parentsOf n fun i => s.parents.getD i 0) s.ranks rep := by
    have : parentsOf n (fun i => s.parents.getD i 0) = s.parents := by
      apply List.ext_getElem
      · simp only [parentsOf, List.length_map, List.length_range]; exact (Inv.lenP h2).symm
      · intro i _ hi; simp [parentsOf, hi]
    rw [this]; exact h2
  have hd := FindInv.steps hm hs hf hst
  obtain ⟨bs, hbl, hsum, hall⟩ := hd.calls
  have state : ∀ (i : Nat) p, d.1[i]? = some p → ∃ a b top, starts[i]? = some a ∧ FindState n s.ranks rep a top b p := by
    intro i p hp
    have hi : i < starts.length := hd.len ▸ (List.getElem?_eq_some_iff.1 hp).1
    obtain ⟨top, ht⟩ := hd.inv.exists_rank (hd.inv.rep_lt (hs _ (List.getElem_mem hi)))
    exact ⟨starts[i], bs[i]'(hbl ▸ hi), top, List.getElem?_eq_getElem hi,
      hall i _ p _ top (List.getElem?_eq_getElem _) hp (List.getElem?_eq_getElem hi) ht⟩
  refine ⟨by omega, ?_, ?_, ?_⟩
  · intro p hp l w hn
    obtain ⟨i, hi⟩ := List.getElem?_of_mem hp
    obtain ⟨a, b, top, _, hst⟩ := state i p hi
    cases hst with
    | loop fuel index r h1 _ _ _ h5 =>
      cases fuel with
      | zero => omega
      | succ fuel => simp only [findProg, Prog.next, Option.some.injEq, Prod.mk.injEq] at hn; omega
    | again fuel index r h1 =>
      simp only [Prog.next, Option.some.injEq, Prod.mk.injEq] at hn; omega
    | grand fuel index temp r b h1 h2 h3 h4 h5 h6 =>
      simp only [Prog.next, Option.some.injEq, Prod.mk.injEq] at hn; omega
    | set fuel index temp g r b c h1 =>
      simp only [Prog.next, Option.some.injEq, Prod.mk.injEq] at hn; omega
    | done => simp [Prog.next] at hn
  · intro b hb
    obtain ⟨s1, e1, _, _⟩ := find_spec (s := { s with parents := (List.range n).map d.2 }) hd.inv hb
    obtain ⟨s2, e2, _, _⟩ := find_spec h2 hb
    rw [e1, e2]; rfl
  · intro hfin i a ha
    have hi : i < d.1.length := by rw [hd.len]; exact (List.getElem?_eq_some_iff.1 ha).1
    obtain ⟨x, hx⟩ := hfin d.1[i] (List.getElem_mem hi)
    have hg : d.1[i]? = some (.ret x) := by rw [List.getElem?_eq_getElem hi, hx]
    obtain ⟨a', b, top, ha', hst⟩ := state i _ hg
    rw [ha] at ha'
    cases Option.some.inj ha'
    obtain ⟨s2, e2, _, _⟩ := find_spec h2 (hs a (List.mem_of_getElem? ha))
    refine ⟨rep a, by rw [e2]; rfl, ?_⟩
    rw [hg]
    generalize hq : (Prog.ret x : Prog (fun _ : Nat => Nat) (Option Nat)) = q at hst
    cases hst with
    | loop fuel index r h1 _ _ _ h5 =>
      cases fuel with
      | zero => omega
      | succ fuel => exact absurd hq (by simp [findProg])
    | again => cases hq
    | grand => cases hq
    | set => cases hq
    | done => rfl

/-! A history with a chain of two parents, where two calls of `find(3)` race. -/

example : (run (init 4) [Op.merge 0 1, .merge 2 3, .merge 0 2]).map (fun s => (s.parents, (find s 3).map Prod.snd))
    = some ([0, 0, 0, 2], some 0) := by decide

end Verif.Parallel
