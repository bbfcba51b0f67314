import Verif.Lemmas.Parallel
import Verif.Lemmas.Matrix

/-
The threads of the loops over arrays and of `fit` alone.
-/

namespace Verif.Parallel

open Matrix

/-! ### transpose -/

theorem transposeBlock_within {α : Type} (n m : Nat) : ∀ cs : List (Nat × Nat),
    (transposeBlock (α := α) n m cs).Within (fun l => ∃ c ∈ cs, l = .input (c.1 * m + c.2))
      (fun l => ∃ c ∈ cs, l = .output (c.2 * n + c.1)) := by
  have mono : ∀ (p : Prog (fun _ : Cell => α) Unit) {R W R' W' : Cell → Prop}, (∀ l, R l → R' l) →
      (∀ l, W l → W' l) → p.Within R W → p.Within R' W' := by
    intro p R W R' W' hR hW
    induction p with
    | ret a => exact id
    | read l k ih => exact fun h => ⟨hR _ h.1, fun v => ih v (h.2 v)⟩
    | write l v k ih => exact fun h => ⟨hW _ h.1, ih h.2⟩
  intro cs
  induction cs with
  | nil => trivial
  | cons c cs ih =>
    obtain ⟨i, j⟩ := c
    refine ⟨⟨_, List.mem_cons_self, rfl⟩, fun v => ⟨⟨_, List.mem_cons_self, rfl⟩, mono _ ?_ ?_ ih⟩⟩
    · rintro l ⟨c, hc, e⟩; exact ⟨c, List.mem_cons_of_mem _ hc, e⟩
    · rintro l ⟨c, hc, e⟩; exact ⟨c, List.mem_cons_of_mem _ hc, e⟩

theorem out_inj {n i j i' j' : Nat} (hi : i < n) (hi' : i' < n) (h : j * n + i = j' * n + i') :
    i = i' ∧ j = j' := by
  have h1 := cell_div (j := j) hi
  have h2 := cell_div (j := j') hi'
  rw [h] at h1
  exact ⟨h1.2.symm.trans h2.2, h1.1.symm.trans h2.1⟩

theorem transposeBlock_run {α : Type} (n m : Nat) : ∀ (cs : List (Nat × Nat)) (mem : Mem fun _ : Cell => α),
    (∀ c ∈ cs, c.1 < n) →
    (∀ k, ((transposeBlock n m cs).run mem).2 (.input k) = mem (.input k)) ∧
    (∀ k, (∀ c ∈ cs, c.2 * n + c.1 ≠ k) → ((transposeBlock n m cs).run mem).2 (.output k) = mem (.output k)) ∧
    (∀ c ∈ cs, ((transposeBlock n m cs).run mem).2 (.output (c.2 * n + c.1)) = mem (.input (c.1 * m + c.2))) := by
  intro cs
  induction cs with
  | nil => intro mem _; exact ⟨fun _ => rfl, fun _ _ => rfl, fun c hc => absurd hc (by simp)⟩
  | cons c cs ih =>
    intro mem hn
    obtain ⟨i, j⟩ := c
    obtain ⟨h1, h2, h3⟩ := ih (Function.update mem (.output (j * n + i)) (mem (.input (i * m + j))))
      (fun c hc => hn c (List.mem_cons_of_mem _ hc))
    refine ⟨?_, ?_, ?_⟩
    · intro k
      simp only [transposeBlock, Prog.run]
      rw [h1 k, Function.update_of_ne (by simp)]
    · intro k hk
      simp only [transposeBlock, Prog.run]
      rw [h2 k (fun c hc => hk c (List.mem_cons_of_mem _ hc)), Function.update_of_ne]
      have := hk (i, j) List.mem_cons_self
      simp only at this
      simp only [ne_eq, Cell.output.injEq]
      exact fun h => this h.symm
    · intro c hc
      simp only [transposeBlock, Prog.run]
      by_cases hcs : c ∈ cs
      · rw [h3 c hcs, Function.update_of_ne (by simp)]
      · have hc' : c = (i, j) := (List.mem_cons.1 hc).resolve_right hcs
        subst hc'
        rw [h2, Function.update_self]
        intro c' hc' e
        obtain ⟨e1, e2⟩ := out_inj (hn c' (List.mem_cons_of_mem _ hc')) (hn _ hc) e
        exact hcs (by rw [← show c' = (i, j) from Prod.ext e1 e2]; exact hc')

theorem transposeBlocks_flatten (n m b : Nat) : (transposeBlocks n m b).flatten = blockCells n m b := by
  simp only [transposeBlocks, blockCells, List.flatMap, List.flatten_flatten, List.map_map]
  rfl

theorem seqCells_nodup (n m : Nat) : (seqCells n m).Nodup := by
  unfold seqCells
  rw [List.nodup_flatMap]
  refine ⟨fun i _ => List.nodup_range.map (fun a b h => by simpa using h), ?_⟩
  refine (List.nodup_range (n := n)).imp ?_
  intro a b hab
  simp only [Function.onFun, List.disjoint_left, List.mem_map, not_exists, not_and]
  rintro _ ⟨c, _, rfl⟩ c' _ h
  simp only [Prod.mk.injEq] at h
  exact hab h.1.symm

theorem blocks_apart (n m b : Nat) (hb : 1 ≤ b) {i j : Nat} {x y : List (Nat × Nat)}
    (hi : (transposeBlocks n m b)[i]? = some x) (hj : (transposeBlocks n m b)[j]? = some y) (hij : i ≠ j) :
    ∀ c ∈ x, c ∉ y := by
  have hnd : (transposeBlocks n m b).flatten.Nodup := by
    rw [transposeBlocks_flatten]
    exact (blockCells_perm n m b hb).nodup_iff.2 (seqCells_nodup n m)
  rw [List.nodup_flatten] at hnd
  obtain ⟨hi1, rfl⟩ := List.getElem?_eq_some_iff.1 hi
  obtain ⟨hj1, rfl⟩ := List.getElem?_eq_some_iff.1 hj
  have hp := List.pairwise_iff_getElem.1 hnd.2
  intro c hc hc'
  rcases Nat.lt_or_gt_of_ne hij with h | h
  · exact hp i j hi1 hj1 h hc hc'
  · exact hp j i hj1 hi1 h hc' hc

theorem mem_blocks {n m b : Nat} (hb : 1 ≤ b) (c : Nat × Nat) :
    (∃ x ∈ transposeBlocks n m b, c ∈ x) ↔ c.1 < n ∧ c.2 < m := by
  rw [← List.mem_flatten, transposeBlocks_flatten, (blockCells_perm n m b hb).mem_iff]
  exact mem_seqCells (i := c.1) (j := c.2)

/-! ### distances -/

theorem triRow_within {X D : Type} (d : X → X → D) (row : Nat) : ∀ cs : List Nat,
    (triRow d row cs).Within (fun l => ∃ c, (c = row ∨ c ∈ cs) ∧ l = .input c)
      (fun l => ∃ c ∈ cs, l = .output (flatIndex row + c)) := by
  have mono : ∀ (p : Prog (TriVal X D) Unit) {R W R' W' : Cell → Prop}, (∀ l, R l → R' l) →
      (∀ l, W l → W' l) → p.Within R W → p.Within R' W' := by
    intro p R W R' W' hR hW
    induction p with
    | ret a => exact id
    | read l k ih => exact fun h => ⟨hR _ h.1, fun v => ih v (h.2 v)⟩
    | write l v k ih => exact fun h => ⟨hW _ h.1, ih h.2⟩
  intro cs
  induction cs with
  | nil => trivial
  | cons c cs ih =>
    refine ⟨⟨_, Or.inl rfl, rfl⟩, fun x => ⟨⟨c, Or.inr List.mem_cons_self, rfl⟩, fun y =>
      ⟨⟨_, List.mem_cons_self, rfl⟩, mono _ ?_ ?_ ih⟩⟩⟩
    · rintro l ⟨c', hc, e⟩; exact ⟨c', hc.imp_right (List.mem_cons_of_mem _), e⟩
    · rintro l ⟨c', hc, e⟩; exact ⟨c', List.mem_cons_of_mem _ hc, e⟩

theorem triRow_run {X D : Type} (d : X → X → D) (row : Nat) : ∀ (cs : List Nat) (mem : Mem (TriVal X D)),
    (∀ k, ((triRow d row cs).run mem).2 (.input k) = mem (.input k)) ∧
    (∀ k, (∀ c ∈ cs, flatIndex row + c ≠ k) → ((triRow d row cs).run mem).2 (.output k) = mem (.output k)) ∧
    (∀ c ∈ cs, ((triRow d row cs).run mem).2 (.output (flatIndex row + c)) =
      d (mem (.input row)) (mem (.input c))) := by
  intro cs
  induction cs with
  | nil => intro mem; exact ⟨fun _ => rfl, fun _ _ => rfl, fun c hc => absurd hc (by simp)⟩
  | cons c cs ih =>
    intro mem
    obtain ⟨h1, h2, h3⟩ := ih (Function.update mem (.output (flatIndex row + c))
      (d (mem (.input row)) (mem (.input c))))
    refine ⟨?_, ?_, ?_⟩
    · intro k
      simp only [triRow, Prog.run]
      rw [h1 k, Function.update_of_ne (by simp)]
    · intro k hk
      simp only [triRow, Prog.run]
      rw [h2 k (fun c hc => hk c (List.mem_cons_of_mem _ hc)), Function.update_of_ne]
      have := hk c List.mem_cons_self
      simp only [ne_eq, Cell.output.injEq]
      exact fun h => this h.symm
    · intro c' hc
      simp only [triRow, Prog.run]
      by_cases hcs : c' ∈ cs
      · rw [h3 c' hcs, Function.update_of_ne (by simp), Function.update_of_ne (by simp)]
      · have hc' : c' = c := (List.mem_cons.1 hc).resolve_right hcs
        subst hc'
        rw [h2, Function.update_self]
        intro c'' hc'' e
        exact hcs (by rw [← show c'' = c' by omega]; exact hc'')

theorem flat_cover : ∀ n k : Nat, k < flatIndex n → ∃ r c, c < r ∧ r < n ∧ k = flatIndex r + c := by
  intro n
  induction n with
  | zero => intro k h; simp [flatIndex] at h
  | succ n ih =>
    intro k h
    by_cases hk : k < flatIndex n
    · obtain ⟨r, c, h1, h2, h3⟩ := ih k hk
      exact ⟨r, c, h1, by omega, h3⟩
    · rw [flatIndex_succ] at h
      exact ⟨n, k - flatIndex n, by omega, by omega, by omega⟩

/-! ### fit -/

theorem mapM_get {α β : Type} (f : α → Option β) : ∀ (l : List α) (rs : List β), l.mapM f = some rs →
    rs.length = l.length ∧ ∀ (i : Nat) a, l[i]? = some a → f a = rs[i]? := by
  intro l
  induction l with
  | nil => intro rs h; simp only [List.mapM_nil, Option.pure_def, Option.some.injEq] at h; subst h; simp
  | cons x l ih =>
    intro rs h
    simp only [List.mapM_cons, Option.bind_eq_bind, Option.bind_eq_some_iff, Option.pure_def,
      Option.some.injEq] at h
    obtain ⟨y, hy, ys, hys, rfl⟩ := h
    obtain ⟨h1, h2⟩ := ih ys hys
    refine ⟨by simp [h1], ?_⟩
    intro i a hi
    cases i with
    | zero => simp only [List.getElem?_cons_zero, Option.some.injEq] at hi ⊢; rw [← hi, hy]
    | succ i => simp only [List.getElem?_cons_succ] at hi ⊢; exact h2 i a hi

section Fit

variable {X S C K : Type} (init : X → C → Option S) (step : X → S → Option S) (cent : S → C)
  (loss : X → S → K) (same : C → C → Bool) (o : KMeans.Options)

/-- What a thread of `fit` reads. -/
def fitReads (c : Nat) (l : FitLoc) : Prop := l = .cand c ∨ l = .prev c ∨ l = .data

/-- What a thread of `fit` writes. -/
def fitWrites (c : Nat) (l : FitLoc) : Prop := l = .cand c ∨ l = .prev c ∨ l = .loss c

theorem fitTail_within (c : Nat) (s : S) :
    (fitTail (C := C) loss c s).Within (fitReads c) (fitWrites c) :=
  ⟨Or.inr (Or.inr rfl), fun _ => ⟨Or.inr (Or.inr rfl), trivial⟩⟩

theorem fitLoop_within (c : Nat) : ∀ (iter : Nat) (s : S) (pat : Nat),
    (fitLoop step cent loss same o c iter s pat).Within (fitReads c) (fitWrites c) := by
  intro iter
  induction iter with
  | zero => intro s pat; exact fitTail_within loss c s
  | succ iter ih =>
    intro s pat
    refine ⟨Or.inr (Or.inr rfl), fun x => ?_⟩
    have cont : ∀ s' p, Prog.Within (fitReads c) (fitWrites c) (.read (V := FitVal X C K) (.cand c) fun a =>
        .write (V := FitVal X C K) (.prev c) a (fitLoop step cent loss same o c iter s' p)) :=
      fun s' p => ⟨Or.inl rfl, fun a => ⟨Or.inr (Or.inl rfl), ih s' p⟩⟩
    dsimp only
    cases step x s with
    | none => trivial
    | some s' =>
      refine ⟨Or.inl rfl, ?_⟩
      by_cases he : o.earlyStopping = true
      · rw [if_pos he]
        refine ⟨Or.inl rfl, fun a => ⟨Or.inr (Or.inl rfl), fun b => ?_⟩⟩
        dsimp only
        by_cases hs : same a b
        · rw [if_pos hs]
          by_cases hp : pat = o.patience
          · rw [if_pos hp]; exact fitTail_within loss c s'
          · rw [if_neg hp]; exact cont s' _
        · rw [if_neg hs]; exact cont s' 0
      · rw [if_neg he]; exact cont s' 0

theorem fitThread_within (c : Nat) :
    (fitThread init step cent loss same o c).Within (fitReads c) (fitWrites c) := by
  refine ⟨Or.inr (Or.inr rfl), fun x => ⟨Or.inl rfl, fun a => ?_⟩⟩
  dsimp only
  cases init x a with
  | none => trivial
  | some s => exact fitLoop_within step cent loss same o c _ s 0

/-- The result of a thread of `fit` alone. -/
def FitResult (c : Nat) (x : X) (r : Bool × Mem (FitVal X C K)) : Option (S × C) → Prop
  | none => r.1 = false
  | some q => r.1 = true ∧ r.2 (.loss c) = loss x q.1 ∧ r.2 (.cand c) = q.2

theorem fitTail_run (c : Nat) (s : S) (mem : Mem (FitVal X C K)) :
    FitResult loss c (mem .data) ((fitTail loss c s).run mem) (some (s, (mem (.cand c) : C))) := by
  refine ⟨rfl, ?_, ?_⟩
  · simp only [fitTail, Prog.run, Function.update_self]
  · simp only [fitTail, Prog.run]
    rw [Function.update_of_ne (by simp)]

theorem fitLoop_run (c : Nat) : ∀ (iter : Nat) (s : S) (pat : Nat) (mem : Mem (FitVal X C K)),
    FitResult loss c (mem .data) ((fitLoop step cent loss same o c iter s pat).run mem)
      (KMeans.iterate (step (mem .data)) cent same o iter s (mem (.cand c)) (mem (.prev c)) pat) := by
  intro iter
  induction iter with
  | zero => intro s pat mem; exact fitTail_run loss c s mem
  | succ iter ih =>
    intro s pat mem
    -- the rest of an iteration after the comparison
    have cont : ∀ s' p, FitResult loss c (mem .data) (Prog.run (.read (V := FitVal X C K) (.cand c) fun a =>
        .write (V := FitVal X C K) (.prev c) a (fitLoop step cent loss same o c iter s' p))
        (Function.update mem (.cand c) (cent s')))
        (KMeans.iterate (step (mem .data)) cent same o iter s' (cent s') (cent s') p) := by
      intro s' p
      have h := ih s' p (Function.update (Function.update mem (.cand c) (cent s')) (.prev c) (cent s'))
      rw [Function.update_of_ne (by simp), Function.update_of_ne (by simp),
        Function.update_of_ne (by simp), Function.update_self, Function.update_self] at h
      simpa only [Prog.run, Function.update_self] using h
    simp only [fitLoop, Prog.run, KMeans.iterate]
    cases step (mem .data) s with
    | none => rfl
    | some s' =>
      simp only [Prog.run, Option.bind_eq_bind, Option.bind_some]
      by_cases he : o.earlyStopping = true
      · simp only [he, if_true, Prog.run, Function.update_self, Bool.true_and]
        rw [Function.update_of_ne (by simp : (FitLoc.prev c) ≠ .cand c)]
        by_cases hs : same (cent s') (mem (.prev c))
        · rw [if_pos hs, if_pos hs]
          by_cases hp : pat = o.patience
          · rw [if_pos hp, if_pos hp]
            have h := fitTail_run loss c s' (Function.update mem (.cand c) (cent s'))
            rw [Function.update_of_ne (by simp), Function.update_self] at h
            exact h
          · rw [if_neg hp, if_neg hp]; exact cont s' _
        · rw [if_neg hs, if_neg hs]; exact cont s' 0
      · rw [if_neg he, if_neg (by simp [he])]; exact cont s' 0

theorem fitThread_run (c : Nat) (mem : Mem (FitVal X C K)) :
    FitResult loss c (mem .data) ((fitThread init step cent loss same o c).run mem)
      ((init (mem .data) (mem (.cand c))).bind fun s =>
        KMeans.iterate (step (mem .data)) cent same o o.maxIter s (mem (.cand c)) (mem (.prev c)) 0) := by
  simp only [fitThread, Prog.run]
  cases init (mem .data) (mem (.cand c)) with
  | none => rfl
  | some s => exact fitLoop_run step cent loss same o c _ s 0 mem

end Fit

end Verif.Parallel
