/-
Model of datastruct/matrix/PairwiseDistanceMatrix.hpp, PairwiseDistanceMatrixDynamic.hpp and
common/math/linear_algebra/Transpose.hpp.

Both filling loops are sequences of writes of independent values to an array.  The parallel versions
execute the same writes in some other order, so the order is an explicit argument (the schedule).
`none` is an access out of range.  Index arithmetic is exact (`std::size_t` products are assumed not
to overflow, which holds for every matrix that fits in memory).
-/

namespace Verif.Matrix

/-- A sequence of array writes. -/
def writeAll {α : Type} (a : List α) : List (Nat × α) → Option (List α)
  | [] => some a
  | (k, v) :: ws => if k < a.length then writeAll (a.set k v) ws else none

/-! ### pairwise distances -/

/-- `flat_index` of a row (PairwiseDistanceMatrix.hpp:90, 110, 131). -/
def flatIndex (row : Nat) : Nat := row * (row - 1) / 2

/-- The cells visited by the two loops, in sequential order
(PairwiseDistanceMatrix.hpp:130-139). -/
def triCells (n : Nat) : List (Nat × Nat) :=
  (List.range' 1 (n - 1)).flatMap (fun row => (List.range row).map (fun col => (row, col)))

/-- `compute_pairwise_distances_sequential` / `_parallel` (PairwiseDistanceMatrix.hpp:96-142): the
cells are computed in the order given by `schedule`; the vector is zero-initialised. -/
def fillTri {α : Type} (zero : α) (dist : Nat → Nat → α) (n : Nat) (schedule : List (Nat × Nat)) :
    Option (List α) :=
  writeAll (List.replicate (n * (n - 1) / 2) zero)
    (schedule.map (fun c => (flatIndex c.1 + c.2, dist c.1 c.2)))

/-- `operator()` (PairwiseDistanceMatrix.hpp:82-93). -/
def triAt {α : Type} (zero : α) (data : List α) (row col : Nat) : Option α :=
  if row = col then some zero
  else if row < col then data[flatIndex col + row]?
  else data[flatIndex row + col]?

/-- `operator()` of the dynamic matrix (PairwiseDistanceMatrixDynamic.hpp:66-71). -/
def dynAt {α : Type} (dist : Nat → Nat → α) (row col : Nat) : α := dist row col

/-! ### transpose -/

/-- Cells of `transpose_sequential` in loop order (Transpose.hpp:28-33). -/
def seqCells (n m : Nat) : List (Nat × Nat) :=
  (List.range n).flatMap (fun i => (List.range m).map (fun j => (i, j)))

/-- Values of a loop variable `for (s = start; s < n; s += step)` (Transpose.hpp:54-55). -/
def steps (n step : Nat) : Nat → Nat → List Nat
  | 0, _ => []
  | fuel + 1, s => if s < n then s :: steps n step fuel (s + step) else []

/-- Values of `for (i = s; i < s + step && i < n; ++i)` (Transpose.hpp:57-58). -/
def block (n step s : Nat) : List Nat := List.range' s (min (s + step) n - s)

/-- Cells of `transpose_parallel_openmp` in sequential loop order (Transpose.hpp:54-63), for any
block size (64 in the code). -/
def blockCells (n m b : Nat) : List (Nat × Nat) :=
  (steps n b n 0).flatMap (fun si => (steps m b m 0).flatMap (fun sj =>
    (block n b si).flatMap (fun i => (block m b sj).map (fun j => (i, j)))))

/-- The reads of the source for a list of cells. -/
def readCells {α : Type} (src : List α) (n m : Nat) : List (Nat × Nat) → Option (List (Nat × α))
  | [] => some []
  | (i, j) :: cs => do
    let v ← src[i * m + j]?
    let r ← readCells src n m cs
    some ((j * n + i, v) :: r)

/-- The transposition loops (Transpose.hpp:26-36 and 46-67) for `n` samples and `m` features with the
given order of the cells; returns the data, the new number of samples and of features. -/
def transpose {α : Type} (zero : α) (src : List α) (n m : Nat) (schedule : List (Nat × Nat)) :
    Option (List α × Nat × Nat) := do
  let ws ← readCells src n m schedule
  let out ← writeAll (List.replicate (n * m) zero) ws
  some (out, m, n)

end Verif.Matrix
