import Verif.Lemmas.SearchParallel
import Verif.Props.SharedIndices

/-
**C117** Searches at the same time.  `Searcher::operator()` is `const`, and every call has its own buffer.
-/

namespace Verif.Parallel

open KDTree Search Buffer Sorting

section

variable {K : Type} [LT K] [DecidableLT K] {B : Type}

theorem job_reads (j : Job K B) (arr : List Nat) (x : Nat → Nat → K) {t : KDTree.Tree K}
    (h : j.tree.view arr = some t) :
    j.prog.Reads (Exact (searchMem arr x)) (Existing arr) (· = j.alone x arr) := by
  obtain ⟨h1, h2⟩ := treeAt_view arr x j.tree t h
  refine (traverseProg_reads j.ops (searchMem arr x) (· < arr.length) (shapeCount j.tree) j.tree j.buffer
    h2).mono ?_ ?_
  · rintro (p | i) hl
    · exact hl
    · obtain ⟨p, hp, rfl⟩ := hl
      simp only [searchMem, Existing, List.getD_eq_getElem?_getD, List.getElem?_eq_getElem hp]
      exact List.getElem_mem hp
  · rintro a rfl
    simp only [Job.alone, searchShared, h, Option.bind_eq_bind, Option.bind_some, search]
    rw [h1, ← shapeCount_treeAt (searchMem arr x), h1]
    rfl

/-- **C117**: any number of searches at the same time, in one tree or in several trees over one index array,
with any kinds of buffers that share nothing.  No schedule has a data race, all accesses are to elements of
the index array and to the samples it names, all searches end, each returns what it returns alone, and the
index array and the samples are unchanged. -/
theorem C117_searches (x : Nat → Nat → K) (arr : List Nat) (jobs : List (Job K B))
    (hj : ∀ j ∈ jobs, ∃ t, j.tree.view arr = some t) :
    Correct (jobs.map Job.prog, searchMem arr x) (Existing arr)
      (fun d => d = (jobs.map (fun j => .ret (j.alone x arr)), searchMem arr x)) := by
  have := correct_of_reads (m := searchMem arr x) (R := Existing arr) (ts := jobs.map Job.prog)
    (res := jobs.map fun j => j.alone x arr) (by
      rw [List.forall₂_map_left_iff, List.forall₂_map_right_iff, List.forall₂_same]
      intro j hm
      obtain ⟨t, ht⟩ := hj j hm
      exact job_reads j arr x ht)
  simpa [List.map_map, Function.comp_def] using this

/-- **C117**, for a tree made by the constructor: every call returns the result of the search in the tree. -/
theorem C117_constructed {eqv : K → K → Bool} (ho : AnyOrder eqv) (x : Nat → Nat → K)
    (policy : List Nat → Nat → Box K → Nat) (bucketSize maxDepth nf : Nat)
    (hpol : ∀ idx d box, policy idx d box < nf) (vmax vlowest : K) (first last : Nat) (arr : List Nat)
    (h1 : first ≤ last) (h2 : last ≤ arr.length) (calls : List (LocalOps K B × B)) :
    ∃ arr' s range t,
      construct eqv x policy bucketSize maxDepth nf vmax vlowest first last arr = some (arr', s) ∧
      make eqv x policy bucketSize maxDepth nf vmax vlowest ((arr.drop first).take (last - first)) =
        some (range, t) ∧
      Correct (calls.map (fun c => (Job.mk s c.1 c.2).prog), searchMem arr' x) (Existing arr)
        (fun d => d.1 = calls.map (fun c => .ret (search x c.1.query (c.1.on x) t c.2)) ∧
          d.2 = searchMem arr' x) := by
  obtain ⟨arr', s, range, t, e, hp, _, _, e2, _, hv⟩ :=
    C100_own ho x policy bucketSize maxDepth nf hpol vmax vlowest first last arr h1 h2
  refine ⟨arr', s, range, t, e, e2, ?_⟩
  have h := C117_searches x arr' (calls.map fun c => Job.mk s c.1 c.2) (by
    intro j hj
    obtain ⟨c, _, rfl⟩ := List.mem_map.1 hj
    exact ⟨t, hv⟩)
  simp only [List.map_map, Function.comp_def] at h
  refine ⟨h.race_free, ?_, h.terminates, ?_⟩
  · intro n d hs p hp' l w hn
    have := h.in_range n d hs p hp' l w hn
    cases l with
    | index i => simpa [Existing, hp.length_eq] using this
    | sample i => exact hp.mem_iff.1 this
  · intro n d hs hf
    rw [h.result n d hs hf]
    simp [Job.alone, searchShared, hv]

/-- **C117**, with other threads: searches run while other threads do anything that does not write samples or
positions of the trees that are searched (and is free of races with each other), for instance construct trees
over other ranges of the index array.  There is still no race, and the searches return what they return
alone. -/
theorem C117_others (x : Nat → Nat → K) (arr : List Nat) (jobs : List (Job K B))
    (hj : ∀ j ∈ jobs, ∃ t, j.tree.view arr = some t)
    (others : List (Prog (SearchVal K) (Option B))) (R W : Nat → SearchLoc → Prop)
    (hw : ∀ (i : Nat) (p : Prog (SearchVal K) (Option B)), others[i]? = some p → p.Within (R i) (W i))
    (hapart : ∀ i k l, i ≠ k → W i l → ¬ W k l ∧ ¬ R k l)
    (hsample : ∀ i s, ¬ W i (.sample s))
    (hindex : ∀ i p, W i (.index p) → ∀ j ∈ jobs, p ∉ positions j.tree) (n : Nat)
    (d : Config (SearchVal K) (Option B))
    (hs : Steps n (jobs.map Job.prog ++ others, searchMem arr x) d) :
    ¬ Race d ∧ (Finished d → ∀ (i : Nat) (j : Job K B), jobs[i]? = some j →
      d.1[i]? = some (.ret (j.alone x arr))) := by
  let P : Nat → Prop := fun p => ∃ j ∈ jobs, p ∈ positions j.tree
  let R' : Nat → SearchLoc → Prop := fun i => if i < jobs.length then Around P else R (i - jobs.length)
  let W' : Nat → SearchLoc → Prop := fun i => if i < jobs.length then fun _ => False else W (i - jobs.length)
  have ha : Apart R' W' := by
    intro i k l hik hwl
    simp only [W', R'] at hwl ⊢
    by_cases hi : i < jobs.length
    · simp [hi] at hwl
    · rw [if_neg hi] at hwl
      by_cases hk : k < jobs.length
      · rw [if_pos hk, if_pos hk]
        refine ⟨not_false, ?_⟩
        cases l with
        | index p => rintro ⟨j, hj1, hj2⟩; exact hindex _ p hwl j hj1 hj2
        | sample s => exact (hsample _ s hwl).elim
      · rw [if_neg hk, if_neg hk]
        exact hapart _ _ l (by omega) hwl
  have hwin : ∀ (i : Nat) (p : Prog (SearchVal K) (Option B)), (jobs.map Job.prog ++ others)[i]? = some p →
      p.Within (R' i) (W' i) := by
    intro i p hp
    simp only [W', R']
    by_cases hi : i < jobs.length
    · rw [if_pos hi, if_pos hi]
      rw [List.getElem?_append_left (by simpa using hi), List.getElem?_map, List.getElem?_eq_getElem hi] at hp
      simp only [Option.map_some, Option.some.injEq] at hp
      subst hp
      exact (traverseProg_around _ P _ _ _ fun q hq => ⟨_, List.getElem_mem hi, hq⟩).within
    · rw [if_neg hi, if_neg hi]
      rw [List.getElem?_append_right (by simpa using Nat.le_of_not_lt hi), List.length_map] at hp
      exact hw _ p hp
  have inv := ParInv.steps (m0 := searchMem arr x) ha hwin hs
  refine ⟨inv.no_race ha, fun hf i j hij => ?_⟩
  rw [(inv.finished hf).1, List.getElem?_map, List.getElem?_append_left
    (by simpa using (List.getElem?_eq_some_iff.1 hij).1), List.getElem?_map, hij]
  obtain ⟨t, ht⟩ := hj j (List.mem_of_getElem? hij)
  simp only [Option.map_some]
  rw [(job_reads j arr x ht).run.1]

/-- The position that a search reads first. -/
def firstRead : Shape K → Option Nat
  | .leaf first last _ => if first < last then some first else none
  | .node p _ _ _ _ => some p

/-- **C117**, the limit: a search runs into a data race with a thread that swaps the root's element of the
index array with another one, which is what a construction does that moves this element
(`C117_rebuild_counterexample`).  This holds for every tree that is not empty, every buffer and every data. -/
theorem C117_swap_race (x : Nat → Nat → K) (arr : List Nat) (j : Job K B) (p : Nat)
    (hp : firstRead j.tree = some p) (k : Nat) (a : Option B) :
    ∃ n d, Steps n ([j.prog, swapProg p k a], searchMem arr x) d ∧ Race d := by
  have hnext : j.prog.next = some (.index p, false) := by
    obtain ⟨s, ops, b⟩ := j
    cases s with
    | leaf first last box =>
      simp only [firstRead] at hp
      split at hp
      · rename_i hlt
        simp only [Option.some.injEq] at hp
        subst hp
        obtain ⟨c, hc⟩ : ∃ c, last - first = c + 1 := ⟨last - first - 1, by omega⟩
        simp [Job.prog, shapeCount, traverseProg, descendProg, hc, List.range'_succ, offerProg, Prog.andThen,
          Prog.bind, Prog.next]
      · simp at hp
    | node q ax box l r =>
      simp only [firstRead, Option.some.injEq] at hp
      subst hp
      simp [Job.prog, shapeCount, traverseProg, descendProg, offerProg, Prog.andThen, Prog.bind, Prog.next]
  let m := searchMem arr x
  let u := m (.index p)
  let v := m (.index k)
  let w : Prog (SearchVal K) (Option B) := .write (V := SearchVal K) (.index p) v
    (.write (V := SearchVal K) (.index k) u (.ret a))
  let r1 : Prog (SearchVal K) (Option B) := .read (V := SearchVal K) (.index k) fun v =>
    .write (V := SearchVal K) (.index p) v (.write (V := SearchVal K) (.index k) u (.ret a))
  have s1 : Step ([j.prog, swapProg p k a], m) ([j.prog, r1], m) := Step.mk 1 (swapProg p k a) r1 rfl rfl
  have s2 : Step ([j.prog, r1], m) ([j.prog, w], m) := Step.mk 1 r1 w rfl rfl
  exact ⟨2, ([j.prog, w], m), ((Steps.refl _).tail s1).tail s2, 0, 1, j.prog, w, .index p, false, true,
    by decide, rfl, rfl, hnext, rfl, Or.inr rfl⟩

end

/-- The element of the index array that searches of a first tree read first, before and after the construction
of a second tree over the same range. -/
def rootMoved (data : List (List ℤ)) (policy policy2 : List Nat → Nat → Box ℤ → Nat) : Option (Nat × Nat) := do
  let n := data.length
  let (arr', s) ← construct eqExact (rowsX data) policy 1 100 2 1000 (-1000) 0 n (List.range n)
  let (arr'', _) ← construct eqExact (rowsX data) policy2 1 100 2 1000 (-1000) 0 n arr'
  let p ← firstRead s
  some (← arr'[p]?, ← arr''[p]?)

/-- **C117**, a construction that moves the root's element: three samples, a tree that cuts along the first
axis, and a second tree over the same range that cuts along the second. -/
theorem C117_rebuild_counterexample :
    rootMoved [[0, 1], [1, 2], [2, 0]] (fun _ _ _ => 0) (fun _ _ _ => 1) = some (1, 0) := by
  decide +kernel

/-! Non-vacuity: four samples, a tree over them, two calls for the nearest sample. -/

/-- `Unsorted` with the Manhattan distance in two dimensions. -/
def nearestOps (q : Nat → ℤ) : LocalOps ℤ (Buf ℤ) where
  query := q
  offer := fun b i y => b.update i (|y 0 - q 0| + |y 1 - q 1|)
  visit := fun b isLeft y a => b.remaining ≠ 0 ||
    (if isLeft then decide (|y a - q a| ≤ b.furthestDistance) else decide (|y a - q a| < b.furthestDistance))

/-- They are the operations of the sequential model. -/
theorem nearestOps_on (x : Nat → Nat → ℤ) (q : Nat → ℤ) :
    (nearestOps q).on x = staticOps x q (fun v w => |v - w|)
      (candAll fun i => |x i 0 - q 0| + |x i 1 - q 1|) := rfl

def exampleRows : Nat → Nat → ℤ := rowsX [[0, 1], [4, 2], [2, 0], [7, 7]]

example : ∃ arr' s t, construct eqExact exampleRows (fun _ _ _ => 0) 1 100 2 1000 (-1000) 0 4 [0, 1, 2, 3] =
      some (arr', s) ∧ s.view arr' = some t ∧
    Job.alone ⟨s, nearestOps (fun _ => 1), Buffer.mk 0 1⟩ exampleRows arr' ≠
      Job.alone ⟨s, nearestOps (fun _ => 6), Buffer.mk 0 1⟩ exampleRows arr' ∧
    firstRead s ≠ none := by
  have h : ((construct eqExact exampleRows (fun _ _ _ => 0) 1 100 2 1000 (-1000) 0 4 [0, 1, 2, 3]).elim false
      fun r => (r.2.view r.1).isSome && decide (Job.alone ⟨r.2, nearestOps (fun _ => 1), Buffer.mk 0 1⟩ exampleRows r.1 ≠
        Job.alone ⟨r.2, nearestOps (fun _ => 6), Buffer.mk 0 1⟩ exampleRows r.1) &&
        decide (firstRead r.2 ≠ none)) = true := by decide +kernel
  cases e : construct eqExact exampleRows (fun _ _ _ => 0) 1 100 2 1000 (-1000) 0 4 [0, 1, 2, 3] with
  | none => rw [e] at h; simp at h
  | some r =>
    rw [e] at h
    simp only [Option.elim_some, Bool.and_eq_true, decide_eq_true_eq] at h
    obtain ⟨t, ht⟩ := Option.isSome_iff_exists.1 h.1.1
    exact ⟨r.1, r.2, t, rfl, ht, h.1.2, h.2⟩

end Verif.Parallel
