import Verif.Lemmas.Matrix
import Verif.Props.Distances

/-
Properties C39 (pairwise distance matrix) and C40 (transpose).
-/

namespace Verif.Matrix

open Verif.Distances

/-- **C39.** For each of the library's distances (`C56_manhattan`, `C56_unsigned_manhattan`,
`C56_euclidean` give `IsMetric`), every data set of `n` samples with `nf` features and every order in
which the cells are computed, the matrix is filled without undefined behaviour and
`matrix(i, j)` is the distance between the samples `i` and `j`, also above the diagonal and on it,
as the dynamic matrix computes it; it is symmetric with zero diagonal. -/
theorem C39_pairwise {K : Type} [AddCommMonoid K] [LinearOrder K] {d : List K → List K → Option K}
    {coord : K → K → K} (hm : IsMetric d coord) (nf n : Nat) (x : Nat → List K)
    (hx : ∀ i, (x i).length = nf) (dist : Nat → Nat → K)
    (hd : ∀ i j, d (x i) (x j) = some (dist i j))
    (schedule : List (Nat × Nat)) (hs : schedule.Perm (triCells n)) :
    ∃ data, fillTri 0 dist n schedule = some data ∧
      ∀ i j, i < n → j < n →
        triAt 0 data i j = some (dist i j) ∧ triAt 0 data i j = some (dynAt dist i j) ∧
        triAt 0 data i j = triAt 0 data j i ∧ triAt 0 data i i = some 0 := by
  have hsym : ∀ i j, dist i j = dist j i := by
    intro i j
    have := hm.symm (x i) (x j) (by rw [hx, hx])
    rw [hd, hd] at this
    exact Option.some.inj this
  have hzero : ∀ i, dist i i = 0 := by
    intro i
    obtain ⟨v, h1, _, h3⟩ := hm.defined (x i) (x i) rfl
    rw [hd] at h1
    rw [Option.some.inj h1]
    exact h3.2 rfl
  obtain ⟨data, e, _, h⟩ := fillTri_spec (0 : K) dist n schedule hs
  have hat : ∀ i j, i < n → j < n → triAt 0 data i j = some (dist i j) := by
    intro i j hi hj
    unfold triAt
    split
    · rename_i hij; subst hij; rw [hzero]
    · split
      · rw [h j i (by assumption) hj, hsym]
      · rw [h i j (by omega) hi]
  refine ⟨data, e, fun i j hi hj => ⟨hat i j hi hj, hat i j hi hj, ?_, ?_⟩⟩
  · rw [hat i j hi hj, hat j i hj hi, hsym]
  · simp [triAt]

/-- **C39**, no data race: the cells that the loops compute are pairwise different, each cell below
the diagonal is computed exactly once, and different cells are stored at different positions. -/
theorem C39_cells (n : Nat) :
    (triCells n).Nodup ∧ (∀ r c, (r, c) ∈ triCells n ↔ c < r ∧ r < n) ∧
    ∀ a ∈ triCells n, ∀ b ∈ triCells n,
      flatIndex a.1 + a.2 = flatIndex b.1 + b.2 → a = b := by
  refine ⟨triCells_nodup n, fun r c => mem_triCells, ?_⟩
  rintro ⟨r, c⟩ ha ⟨r', c'⟩ hb h
  obtain ⟨h1, h2⟩ := flat_inj (mem_triCells.1 ha).1 (mem_triCells.1 hb).1 h
  rw [h1, h2]

/-- **C40.** Sequential version: for `n` rows of `m` features stored row by row, the result is
`m` rows of `n` features with element `(i, j)` at `(j, i)`. -/
theorem C40_transpose {α : Type} (zero : α) (src : List α) (n m : Nat) (hl : src.length = n * m) :
    ∃ out, transpose zero src n m (seqCells n m) = some (out, m, n) ∧ out.length = n * m ∧
      ∀ i j, i < n → j < m → out[j * n + i]? = src[i * m + j]? := by
  obtain ⟨out, e, h1, h2⟩ := transpose_spec zero src n m (fun i j => src.getD (i * m + j) zero)
    (by
      intro i j hi hj
      have := cell_lt hj hi
      rw [List.getD_eq_getElem?_getD, List.getElem?_eq_getElem (by rw [hl, Nat.mul_comm n m]; exact this)]
      rfl) (seqCells n m) (fun i j => mem_seqCells)
  refine ⟨out, e, h1, ?_⟩
  intro i j hi hj
  rw [h2 i j hi hj]
  have := cell_lt hj hi
  rw [List.getD_eq_getElem?_getD, List.getElem?_eq_getElem (by rw [hl, Nat.mul_comm n m]; exact this)]
  rfl

/-- **C40**, involution: transposing twice gives back the data and its shape. -/
theorem C40_involution {α : Type} (zero : α) (src : List α) (n m : Nat) (hl : src.length = n * m) :
    ∃ out, transpose zero src n m (seqCells n m) = some (out, m, n) ∧
      transpose zero out m n (seqCells m n) = some (src, n, m) := by
  obtain ⟨out, e, h1, h2⟩ := C40_transpose zero src n m hl
  obtain ⟨out', e', h1', h2'⟩ := C40_transpose zero out m n (by rw [h1, Nat.mul_comm])
  refine ⟨out, e, ?_⟩
  have : out' = src := by
    apply List.ext_getElem?
    intro k
    by_cases hk : k < n * m
    · have hm : 0 < m := by
        rcases Nat.eq_zero_or_pos m with h | h
        · subst h; simp at hk
        · exact h
      have hi : k / m < n := by rw [Nat.div_lt_iff_lt_mul hm]; exact hk
      have hj : k % m < m := Nat.mod_lt _ hm
      have hkk : k / m * m + k % m = k := by rw [Nat.mul_comm]; exact Nat.div_add_mod k m
      have := h2' (k % m) (k / m) hj hi
      rw [h2 _ _ hi hj, hkk] at this
      exact this
    · rw [List.getElem?_eq_none (by rw [h1', Nat.mul_comm]; omega),
        List.getElem?_eq_none (by omega)]
  rw [← this]
  exact e'

/-- **C40**, parallel version: for every block size and every order of execution of the cell writes,
each cell is written exactly once and the result is that of the sequential version. -/
theorem C40_blocked {α : Type} (zero : α) (src : List α) (n m b : Nat) (hb : 1 ≤ b)
    (hl : src.length = n * m) (schedule : List (Nat × Nat))
    (hs : schedule.Perm (blockCells n m b)) :
    schedule.Perm (seqCells n m) ∧
      transpose zero src n m schedule = transpose zero src n m (seqCells n m) := by
  have hp := hs.trans (blockCells_perm n m b hb)
  refine ⟨hp, ?_⟩
  have hg : ∀ i j, i < n → j < m → src[i * m + j]? = some (src.getD (i * m + j) zero) := by
    intro i j hi hj
    have := cell_lt hj hi
    rw [List.getD_eq_getElem?_getD, List.getElem?_eq_getElem (by rw [hl, Nat.mul_comm n m]; exact this)]
    rfl
  obtain ⟨o1, e1, l1, h1⟩ := transpose_spec zero src n m _ hg schedule
    (fun i j => by rw [hp.mem_iff]; exact mem_seqCells)
  obtain ⟨o2, e2, l2, h2⟩ := transpose_spec zero src n m _ hg (seqCells n m)
    (fun i j => mem_seqCells)
  rw [e1, e2]
  have : o1 = o2 := by
    apply List.ext_getElem?
    intro k
    by_cases hk : k < n * m
    · have hn : 0 < n := by
        rcases Nat.eq_zero_or_pos n with h | h
        · subst h; simp at hk
        · exact h
      have hi : k % n < n := Nat.mod_lt _ hn
      have hj : k / n < m := by rw [Nat.div_lt_iff_lt_mul hn, Nat.mul_comm]; exact hk
      have hkk : k / n * n + k % n = k := by rw [Nat.mul_comm]; exact Nat.div_add_mod k n
      have a1 := h1 _ _ hi hj
      have a2 := h2 _ _ hi hj
      rw [hkk] at a1 a2
      rw [a1, a2]
    · rw [List.getElem?_eq_none (by omega), List.getElem?_eq_none (by omega)]
  rw [this]

/-! Concrete cases: four points on a line, filled backwards; a 3 by 2 matrix with blocks of 2. -/

example : (fillTri (0 : ℤ) (fun i j => |([0, 5, 3, 10].getD i 0 : ℤ) - [0, 5, 3, 10].getD j 0|) 4
    (triCells 4).reverse).bind (fun d => triAt 0 d 1 3) = some 5 := by decide +kernel

example : ((triCells 4).reverse).Perm (triCells 4) := List.reverse_perm _

example : transpose 0 [1, 2, 3, 4, 5, 6] 3 2 (blockCells 3 2 2).reverse =
    some ([1, 3, 5, 2, 4, 6], 2, 3) := by decide +kernel

end Verif.Matrix
