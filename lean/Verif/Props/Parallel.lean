import Verif.Lemmas.ParallelLoops
import Verif.Model.KMedoidsFit
import Mathlib.Algebra.Order.Ring.Rat

/-
C94: the OpenMP loops.
-/

namespace Verif.Parallel

open Matrix

/-- C94 (an execution that has not ended can go on): there is no deadlock. -/
theorem C94_progress {L : Type} [DecidableEq L] {V : L → Type} {A : Type} (c : Config V A)
    (h : ¬ Finished c) : ∃ d, Step c d := progress c h

/-- C94 (executions end): a correct loop can be executed to its end from every state it gets to. -/
theorem C94_ends {L : Type} [DecidableEq L] {V : L → Type} {A : Type} {c : Config V A} {In : L → Prop}
    {Post : Config V A → Prop} (h : Correct c In Post) {n : Nat} {d : Config V A} (hd : Steps n c d) :
    ∃ k e, Steps k c e ∧ Finished e ∧ Post e ∧ n ≤ k := by
  obtain ⟨b, hb⟩ := h.terminates
  generalize hk : b - n = r
  induction r using Nat.strongRecOn generalizing n d with
  | _ r ih =>
    by_cases hf : Finished d
    · exact ⟨n, d, hd, hf, h.result n d hd hf, Nat.le_refl _⟩
    · obtain ⟨e, he⟩ := progress d hf
      have h1 := hb _ _ (hd.tail he)
      obtain ⟨k, e', h2, h3, h4, h5⟩ := ih (b - (n + 1)) (by omega) (hd.tail he) rfl
      exact ⟨k, e', h2, h3, h4, by omega⟩

/-- C94 (`transpose_parallel_openmp`): for every block size, number of threads and schedule the loop is
free of data races, stays within the arrays, ends, and leaves in the output what the sequential loop
computes; the input is unchanged.  `out0` is whatever the output held before. -/
theorem C94_transpose {α : Type} (zero : α) (src : List α) (out0 : Nat → α) (n m b : Nat) (hb : 1 ≤ b)
    (hl : src.length = n * m) :
    ∃ out, transpose zero src n m (seqCells n m) = some (out, m, n) ∧
      Correct ((transposeBlocks n m b).map (transposeBlock n m),
          fun l => match l with | .input i => src.getD i zero | .output i => out0 i)
        (fun l => match l with | .input i => i < src.length | .output i => i < out.length)
        (fun d => (∀ k < out.length, some (d.2 (.output k)) = out[k]?) ∧
          ∀ k < src.length, some (d.2 (.input k)) = src[k]?) := by
  have hg : ∀ i j, i < n → j < m → src[i * m + j]? = some (src.getD (i * m + j) zero) := by
    intro i j hi hj
    have := cell_lt hj hi
    rw [List.getD_eq_getElem?_getD, List.getElem?_eq_getElem (by rw [hl, Nat.mul_comm n m]; exact this)]
    rfl
  obtain ⟨out, e, hlen, hout⟩ := transpose_spec zero src n m (fun i j => src.getD (i * m + j) zero) hg
    (seqCells n m) (fun i j => mem_seqCells)
  refine ⟨out, e, ?_⟩
  -- the cells of thread `i`
  let cells : Nat → List (Nat × Nat) := fun i => (transposeBlocks n m b).getD i []
  have hcells : ∀ i c, c ∈ cells i → c.1 < n ∧ c.2 < m := by
    intro i c hc
    simp only [cells, List.getD_eq_getElem?_getD] at hc
    cases h : (transposeBlocks n m b)[i]? with
    | none => simp [h] at hc
    | some x =>
      rw [h] at hc
      exact (mem_blocks hb c).1 ⟨x, List.mem_of_getElem? h, hc⟩
  refine correct_of_apart (R := fun i l => ∃ c ∈ cells i, l = .input (c.1 * m + c.2))
    (W := fun i l => ∃ c ∈ cells i, l = .output (c.2 * n + c.1)) ?_ ?_ ?_ ?_
  · rintro i j l hij ⟨c, hc, rfl⟩
    refine ⟨?_, by rintro ⟨c', _, h⟩; exact absurd h (by simp)⟩
    rintro ⟨c', hc', h⟩
    simp only [Cell.output.injEq] at h
    obtain ⟨e1, e2⟩ := out_inj (hcells i c hc).1 (hcells j c' hc').1 h
    have ecc : c = c' := Prod.ext e1 e2
    subst ecc
    have g : ∀ k, c ∈ cells k → ∃ x, (transposeBlocks n m b)[k]? = some x ∧ c ∈ x := by
      intro k hk
      simp only [cells, List.getD_eq_getElem?_getD] at hk
      cases h : (transposeBlocks n m b)[k]? with
      | none => simp [h] at hk
      | some x => rw [h] at hk; exact ⟨x, rfl, hk⟩
    obtain ⟨x, hx, hcx⟩ := g i hc
    obtain ⟨y, hy, hcy⟩ := g j hc'
    exact blocks_apart n m b hb hx hy hij c hcx hcy
  · intro i p hp
    rw [List.getElem?_map] at hp
    obtain ⟨x, hx, rfl⟩ := Option.map_eq_some_iff.1 hp
    have hcx : cells i = x := by simp only [cells, List.getD_eq_getElem?_getD, hx]; rfl
    rw [hcx]
    exact transposeBlock_within n m x
  · rintro i l _ (⟨c, hc, rfl⟩ | ⟨c, hc, rfl⟩)
    · have := cell_lt (hcells i c hc).2 (hcells i c hc).1
      simp only [hl]
      rw [Nat.mul_comm n m]; exact this
    · have := cell_lt (hcells i c hc).1 (hcells i c hc).2
      simp only [hlen]; exact this
  · intro d _ hw ho
    refine ⟨?_, ?_⟩
    · intro k hk
      have hn : 0 < n := by
        rcases Nat.eq_zero_or_pos n with h | h
        · subst h; simp [hlen] at hk
        · exact h
      have hkm : k / n < m := Nat.div_lt_of_lt_mul (by rw [hlen] at hk; exact hk)
      have hmod : k % n < n := Nat.mod_lt _ hn
      have hk' : k / n * n + k % n = k := Nat.div_add_mod' k n
      obtain ⟨x, hx, hcx⟩ := (mem_blocks hb (k % n, k / n)).2 ⟨hmod, hkm⟩
      obtain ⟨i, hi⟩ := List.getElem?_of_mem hx
      have hci : cells i = x := by simp only [cells, List.getD_eq_getElem?_getD, hi]; rfl
      have := hw i (transposeBlock n m x) (.output (k / n * n + k % n)) (by rw [List.getElem?_map, hi]; rfl)
        ⟨(k % n, k / n), by rw [hci]; exact hcx, rfl⟩
      have hr := (transposeBlock_run n m x (fun l => match l with
        | .input i => src.getD i zero | .output i => out0 i)
        (fun c hc => (hcells i c (by rw [hci]; exact hc)).1)).2.2 (k % n, k / n) hcx
      have key : ∀ k', k' = k → some (d.2 (.output k')) = out[k']? → some (d.2 (.output k)) = out[k]? := by
        rintro _ rfl h; exact h
      refine key _ hk' ?_
      rw [this, hout (k % n) (k / n) hmod hkm]
      exact congrArg some hr
    · intro k hk
      rw [ho (.input k) (by rintro j ⟨c, _, h⟩; exact absurd h (by simp)), List.getElem?_eq_getElem hk]
      simp [hk]

/-- C94 (`compute_pairwise_distances_parallel`): for every schedule of the rows the loop is free of data
races, stays within the arrays, ends, and leaves the distances that the sequential loop computes. -/
theorem C94_pairwise {X D : Type} (zero : D) (d : X → X → D) (x : Nat → X) (out0 : Nat → D) (n : Nat) :
    ∃ data, fillTri zero (fun i j => d (x i) (x j)) n (triCells n) = some data ∧
      Correct (triThreads d n, fun l => match l with | .input i => x i | .output i => out0 i)
        (fun l => match l with | .input i => i < n | .output i => i < data.length)
        (fun c => (∀ k < data.length, some (c.2 (.output k)) = data[k]?) ∧
          ∀ k, c.2 (.input k) = x k) := by
  obtain ⟨data, e, hlen, hdata⟩ := fillTri_spec zero (fun i j => d (x i) (x j)) n (triCells n) (List.Perm.refl _)
  refine ⟨data, e, ?_⟩
  have hts : ∀ i p, (triThreads d n)[i]? = some p → i + 1 < n ∧ p = triRow d (i + 1) (List.range (i + 1)) := by
    intro i p hp
    simp only [triThreads, List.getElem?_map] at hp
    obtain ⟨r, hr, rfl⟩ := Option.map_eq_some_iff.1 hp
    obtain ⟨h1, h2⟩ := List.getElem?_eq_some_iff.1 hr
    rw [List.length_range'] at h1
    have h3 : r = i + 1 := by rw [← h2, List.getElem_range']; omega
    subst h3
    exact ⟨by omega, rfl⟩
  have hflat : n * (n - 1) / 2 = flatIndex n := rfl
  refine correct_of_apart (R := fun i l => ∃ c ≤ i + 1, l = .input c)
    (W := fun i l => ∃ c < i + 1, l = .output (flatIndex (i + 1) + c)) ?_ ?_ ?_ ?_
  · rintro i j l hij ⟨c, hc, rfl⟩
    refine ⟨?_, by rintro ⟨c', _, h⟩; exact absurd h (by simp)⟩
    rintro ⟨c', hc', h⟩
    simp only [Cell.output.injEq] at h
    have := (flat_inj hc hc' h).1
    omega
  · intro i p hp
    obtain ⟨_, rfl⟩ := hts i p hp
    have h := triRow_within d (i + 1) (List.range (i + 1))
    have e1 : (fun l => ∃ c, (c = i + 1 ∨ c ∈ List.range (i + 1)) ∧ l = Cell.input c) =
        fun l => ∃ c ≤ i + 1, l = Cell.input c := by
      funext l
      refine propext (exists_congr fun c => and_congr_left fun _ => ?_)
      rw [List.mem_range]; omega
    have e2 : (fun l => ∃ c ∈ List.range (i + 1), l = Cell.output (flatIndex (i + 1) + c)) =
        fun l => ∃ c < i + 1, l = Cell.output (flatIndex (i + 1) + c) := by
      funext l; simp only [List.mem_range]
    rw [e1, e2] at h
    exact h
  · intro i l hi hl
    have hi' : i + 1 < n := by
      simp only [triThreads, List.length_map, List.length_range'] at hi; omega
    rcases hl with ⟨c, hc, rfl⟩ | ⟨c, hc, rfl⟩
    · show c < n; omega
    · show flatIndex (i + 1) + c < data.length
      rw [hlen, hflat]; exact flat_lt hc hi'
  · intro c _ hw ho
    refine ⟨?_, ?_⟩
    · intro k hk
      rw [hlen, hflat] at hk
      obtain ⟨r, q, hq, hr, rfl⟩ := flat_cover n k hk
      obtain ⟨i, rfl⟩ : ∃ i, r = i + 1 := ⟨r - 1, by omega⟩
      have hi : (triThreads d n)[i]? = some (triRow d (i + 1) (List.range (i + 1))) := by
        simp only [triThreads, List.getElem?_map]
        rw [List.getElem?_eq_getElem (by rw [List.length_range']; omega), List.getElem_range']
        simp only [Option.map_some, Nat.one_mul, Nat.add_comm 1 i]
      rw [hdata (i + 1) q hq hr, hw i _ _ hi ⟨q, hq, rfl⟩,
        (triRow_run d (i + 1) (List.range (i + 1)) _).2.2 q (List.mem_range.2 hq)]
    · intro k
      rw [ho (.input k) (by rintro j ⟨c, _, h⟩; exact absurd h (by simp))]

/-- C94 (`fit`, one iteration of the loop per candidate): for every schedule of the candidates the loop
is free of data races, only touches the entries of the candidates, ends, and the chosen candidate is
the one of the sequential loop. -/
theorem C94_fit {X S C K : Type} [LinearOrder K] (init : X → C → Option S) (step : X → S → Option S)
    (cent : S → C) (loss : X → S → K) (same : C → C → Bool) (isEmpty : C → Bool) (none' : C) (zero : K)
    (o : KMeans.Options) (x : X) (stored : C) (drawn : Nat → C) :
    let n := if isEmpty stored then o.nInit else 1
    Correct ((List.range n).map (fitThread init step cent loss same o),
        fitMem x none' zero (fun i => if isEmpty stored then drawn i else stored))
      (fun l => match l with | .cand i | .prev i | .loss i => i < n | .data => True)
      (fun d => d.2 .data = x ∧
        fitEnd n d = KMeans.fit (init x) (step x) cent (loss x) same isEmpty none' o stored drawn) := by
  intro n
  have hget : ∀ i p, ((List.range n).map (fitThread init step cent loss same o))[i]? = some p →
      i < n ∧ p = fitThread init step cent loss same o i := by
    intro i p hp
    rw [List.getElem?_map] at hp
    obtain ⟨j, hj, rfl⟩ := Option.map_eq_some_iff.1 hp
    obtain ⟨h1, h2⟩ := List.getElem?_eq_some_iff.1 hj
    rw [List.getElem_range] at h2
    subst h2
    exact ⟨by simpa using h1, rfl⟩
  refine correct_of_apart (R := fitReads) (W := fitWrites) ?_ ?_ ?_ ?_
  · rintro i j l hij (rfl | rfl | rfl) <;> simp [fitReads, fitWrites, hij]
  · intro i p hp
    obtain ⟨_, rfl⟩ := hget i p hp
    exact fitThread_within init step cent loss same o i
  · intro i l hi hl
    rw [List.length_map, List.length_range] at hi
    rcases hl with (rfl | rfl | rfl) | (rfl | rfl | rfl)
    all_goals first | exact hi | trivial
  · intro d hd hw ho
    have hdata : d.2 .data = x := ho .data (by simp [fitWrites])
    refine ⟨hdata, ?_⟩
    generalize hm0 : fitMem (X := X) (K := K) x none' zero (fun i => if isEmpty stored then drawn i else stored) = m0
      at *
    -- the run of candidate `i`
    let g : Nat → Option (S × C) := fun i =>
      (init x (if isEmpty stored then drawn i else stored)).bind fun s =>
        KMeans.iterate (step x) cent same o o.maxIter s (if isEmpty stored then drawn i else stored) none' 0
    have hrun : ∀ i, FitResult loss i x ((fitThread init step cent loss same o i).run m0) (g i) := by
      intro i
      have h := fitThread_run init step cent loss same o i m0
      rw [← hm0] at h ⊢
      exact h
    have hfit : KMeans.fit (init x) (step x) cent (loss x) same isEmpty none' o stored drawn =
        ((List.range n).mapM g).bind fun runs =>
          (Stats.argmin none (runs.map fun r => loss x r.1)).bind fun i => (runs[i]?).bind fun r => some r.2 := by
      have : ((if isEmpty stored then (List.range o.nInit).map drawn else [stored]).mapM fun c => do
          let s ← init x c
          KMeans.iterate (step x) cent same o o.maxIter s c none' 0) = (List.range n).mapM g := by
        by_cases hs : isEmpty stored
        · simp only [n, g, hs, if_true, List.mapM_map]; rfl
        · simp only [n, g, hs, Bool.false_eq_true, if_false]; rfl
      unfold KMeans.fit
      simp only [Option.bind_eq_bind] at this ⊢
      rw [this]
    rw [hfit]
    unfold fitEnd
    cases hr : (List.range n).mapM g with
    | none =>
      rw [if_neg]
      · rfl
      · intro hall
        rw [hd, List.all_eq_true] at hall
        have : ∀ i ∈ List.range n, (g i).isSome := by
          intro i hi
          have h1 := hall (.ret ((fitThread init step cent loss same o i).run m0).1)
            (by rw [List.map_map]; exact List.mem_map.2 ⟨i, hi, rfl⟩)
          have h2 := hrun i
          cases hg : g i with
          | some q => rfl
          | none => rw [hg] at h2; simp only [Prog.ok] at h1; rw [h2] at h1; exact absurd h1 (by simp)
        have h3 : (List.range n).mapM g ≠ none := by
          clear hr hfit hd
          generalize List.range n = is at this
          induction is with
          | nil => simp
          | cons i is ih =>
            obtain ⟨q, hq⟩ := Option.isSome_iff_exists.1 (this i List.mem_cons_self)
            have h4 := ih (fun j hj => this j (List.mem_cons_of_mem _ hj))
            obtain ⟨r, hr⟩ := Option.ne_none_iff_exists'.1 h4
            simp [List.mapM_cons, hq, hr]
        exact h3 hr
    | some runs =>
      obtain ⟨hlen, hgi⟩ := mapM_get g _ runs hr
      rw [List.length_range] at hlen
      replace hgi : ∀ i r, runs[i]? = some r → g i = some r := by
        intro i r hri
        have hi : i < n := hlen ▸ (List.getElem?_eq_some_iff.1 hri).1
        rw [hgi i i (List.getElem?_range hi), hri]
      have hres : ∀ i r, runs[i]? = some r → d.2 (.loss i) = loss x r.1 ∧ d.2 (.cand i) = r.2 ∧
          ((fitThread init step cent loss same o i).run m0).1 = true := by
        intro i r hri
        have hi : i < n := hlen ▸ (List.getElem?_eq_some_iff.1 hri).1
        have h2 := hrun i
        rw [hgi i r hri] at h2
        have hp : ((List.range n).map (fitThread init step cent loss same o))[i]? =
            some (fitThread init step cent loss same o i) := by
          rw [List.getElem?_map, List.getElem?_range hi]; rfl
        exact ⟨(hw i _ (.loss i) hp (Or.inr (Or.inr rfl))).trans h2.2.1,
          (hw i _ (.cand i) hp (Or.inl rfl)).trans h2.2.2, h2.1⟩
      rw [if_pos]
      · have hloss : ((List.range n).map fun c => (d.2 (.loss c) : K)) = runs.map fun r => loss x r.1 := by
          apply List.ext_getElem
          · simp [hlen]
          · intro i h1 h2
            rw [List.length_map] at h2
            rw [List.getElem_map, List.getElem_map, List.getElem_range]
            exact (hres i _ (List.getElem?_eq_getElem h2)).1
        rw [hloss]
        simp only [Option.bind_eq_bind, Option.bind_some]
        cases Stats.argmin none (runs.map fun r => loss x r.1) with
        | none => rfl
        | some i =>
          simp only [Option.bind_some]
          by_cases hi : i < n
          · rw [if_pos hi, List.getElem?_eq_getElem (hlen ▸ hi), Option.bind_some,
              (hres i _ (List.getElem?_eq_getElem (hlen ▸ hi))).2.1]
          · rw [if_neg hi, List.getElem?_eq_none (by omega)]; rfl
      · rw [hd, List.map_map, List.all_map, List.all_eq_true]
        intro i hi
        rw [List.mem_range] at hi
        exact (hres i _ (List.getElem?_eq_getElem (hlen ▸ hi))).2.2

/-- C94 (`KMedoids::fit`): the same for the medoids. -/
theorem C94_kmedoids {K : Type} [LinearOrder K] [Ring K] (vmax : K) (eq : K → K → Bool) (d : Nat → Nat → K)
    (n k : Nat) (o : KMeans.Options) (stored : List Nat) (outcome : Nat → Nat → Nat) (drawn : List (List Nat))
    (hd : (List.range (if stored = [] then o.nInit else 0)).mapM
      (fun i => Random.fromInterval (outcome i) k 0 n) = some drawn) :
    let m := if stored.isEmpty then o.nInit else 1
    Correct ((List.range m).map (fitThread (fun d => KMedoids.pamInit vmax eq d n)
          (fun d => KMedoids.pamStep d n) (fun s => s.medoids) (fun _ s => s.loss)
          (fun a b => decide (a = b)) o),
        fitMem d [] 0 (fun i => if stored.isEmpty then drawn.getD i [] else stored))
      (fun l => match l with | .cand i | .prev i | .loss i => i < m | .data => True)
      (fun c => c.2 .data = d ∧ fitEnd m c = KMedoids.fit vmax eq d n k o stored outcome) := by
  intro m
  have h := C94_fit (K := K) (fun d => KMedoids.pamInit vmax eq d n) (fun d => KMedoids.pamStep d n)
    (fun s => s.medoids) (fun _ s => s.loss) (fun a b => decide (a = b)) List.isEmpty [] 0 o d stored
    (fun i => drawn.getD i [])
  have e : KMedoids.fit vmax eq d n k o stored outcome = KMeans.fit (KMedoids.pamInit vmax eq d n)
      (KMedoids.pamStep d n) (fun s => s.medoids) (fun s => s.loss) (fun a b => decide (a = b))
      List.isEmpty [] o stored (fun i => drawn.getD i []) := by
    unfold KMedoids.fit
    rw [hd]
    rfl
  rw [e]
  exact h

/-! Several threads: a 3 × 2 matrix in blocks of 2, the rows of 4 samples, and three candidates whose
third one wins. -/

example : transposeBlocks 3 2 2 = [[(0, 0), (0, 1), (1, 0), (1, 1)], [(2, 0), (2, 1)]] := by decide

example : (transpose 0 [1, 2, 3, 4, 5, 6] 3 2 (seqCells 3 2)) = some ([1, 3, 5, 2, 4, 6], 2, 3) := by decide

example : (triThreads (fun a b : Int => a - b) 4).length = 3 := by decide

example : KMeans.fit (fun c : Int => some c) (fun s : Int => some (s - 1)) id (fun s => s * s) (fun a b => decide (a = b))
    (fun c => decide (c = 0)) 0 { maxIter := 3, nInit := 3 } 0 (fun i => 9 - 3 * (i : Int)) = some 0 := by
  decide +kernel

end Verif.Parallel
