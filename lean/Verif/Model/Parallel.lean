import Mathlib.Logic.Function.Basic
import Verif.Model.Matrix
import Verif.Model.KMeans

/-
Model of the OpenMP loops (KMeans.hpp:182-222, KMedoids.hpp:193-231 and 283-317, Transpose.hpp:52-64,
PairwiseDistanceMatrix.hpp:104-118) and of concurrent calls of `UnionFind::find` (UnionFind.hpp:46-55).

A thread is a program of reads and writes of shared memory locations; everything else it does is
local.  Every iteration of a loop is a thread and the threads are interleaved arbitrarily, access by
access.  This includes every schedule of OpenMP, which only adds order (iterations of one thread run
one after the other).  Accesses are sequentially consistent: C++ guarantees this when no execution has
a data race, which is a property that is proved or refuted.
-/

namespace Verif.Parallel

/-- A thread: the accesses to shared memory with what it does next; `V l` is the type of the object at
the location `l`. -/
inductive Prog {L : Type} (V : L → Type) (A : Type) where
  | ret (a : A)
  | read (l : L) (k : V l → Prog V A)
  | write (l : L) (v : V l) (k : Prog V A)

/-- The shared memory. -/
abbrev Mem {L : Type} (V : L → Type) := (l : L) → V l

/-- One access of a thread. -/
def act {L : Type} [DecidableEq L] {V : L → Type} {A : Type} (m : Mem V) : Prog V A → Option (Prog V A × Mem V)
  | .ret _ => none
  | .read l k => some (k (m l), m)
  | .write l v k => some (k, Function.update m l v)

/-- The threads with the memory. -/
abbrev Config {L : Type} (V : L → Type) (A : Type) := List (Prog V A) × Mem V

/-- Some thread makes its next access. -/
inductive Step {L : Type} [DecidableEq L] {V : L → Type} {A : Type} : Config V A → Config V A → Prop
  | mk {ts : List (Prog V A)} {m m' : Mem V} (i : Nat) (p p' : Prog V A) :
    ts[i]? = some p → act m p = some (p', m') → Step (ts, m) (ts.set i p', m')

/-- Executions with `n` accesses. -/
inductive Steps {L : Type} [DecidableEq L] {V : L → Type} {A : Type} : Nat → Config V A → Config V A → Prop
  | refl (c : Config V A) : Steps 0 c c
  | tail {n : Nat} {c d e : Config V A} : Steps n c d → Step d e → Steps (n + 1) c e

/-- All threads have ended. -/
def Finished {L : Type} {V : L → Type} {A : Type} (c : Config V A) : Prop := ∀ p ∈ c.1, ∃ a, p = .ret a

/-- The location of the next access of a thread and whether it is a write. -/
def Prog.next {L : Type} {V : L → Type} {A : Type} : Prog V A → Option (L × Bool)
  | .ret _ => none
  | .read l _ => some (l, false)
  | .write l _ _ => some (l, true)

/-- A data race: the next accesses of two threads are to the same location and one is a write. -/
def Race {L : Type} {V : L → Type} {A : Type} (c : Config V A) : Prop :=
  ∃ (i j : Nat) (p q : Prog V A) (l : L) (w w' : Bool), i ≠ j ∧ c.1[i]? = some p ∧ c.1[j]? = some q ∧
    p.next = some (l, w) ∧ q.next = some (l, w') ∧ (w = true ∨ w' = true)

/-! ### the loops over arrays -/

/-- Shared locations of the loops over arrays: elements of the input and of the output. -/
inductive Cell where
  | input (i : Nat)
  | output (i : Nat)
  deriving DecidableEq

/-- One iteration of the collapsed loops of `transpose_parallel_openmp` (Transpose.hpp:57-63): the
cells of a block. -/
def transposeBlock {α : Type} (n m : Nat) : List (Nat × Nat) → Prog (fun _ : Cell => α) Unit
  | [] => .ret ()
  | (i, j) :: cs => .read (.input (i * m + j)) fun v => .write (.output (j * n + i)) v (transposeBlock n m cs)

/-- The iterations (Transpose.hpp:54-55) with their cells. -/
def transposeBlocks (n m b : Nat) : List (List (Nat × Nat)) :=
  (Matrix.steps n b n 0).flatMap fun si => (Matrix.steps m b m 0).map fun sj =>
    (Matrix.block n b si).flatMap fun i => (Matrix.block m b sj).map fun j => (i, j)

/-- Types of the locations of the distance matrix: an input is a sample, which is only read. -/
abbrev TriVal (X D : Type) : Cell → Type
  | .input _ => X
  | .output _ => D

/-- One iteration of the loop of `compute_pairwise_distances_parallel`
(PairwiseDistanceMatrix.hpp:108-117): the columns of a row.  A sample is read as one object. -/
def triRow {X D : Type} (d : X → X → D) (row : Nat) : List Nat → Prog (TriVal X D) Unit
  | [] => .ret ()
  | col :: cs => .read (V := TriVal X D) (.input row) fun x => .read (V := TriVal X D) (.input col) fun y =>
      .write (V := TriVal X D) (.output (Matrix.flatIndex row + col)) (d x y) (triRow d row cs)

/-- The threads of `compute_pairwise_distances_parallel` (PairwiseDistanceMatrix.hpp:107). -/
def triThreads {X D : Type} (d : X → X → D) (n : Nat) : List (Prog (TriVal X D) Unit) :=
  (List.range' 1 (n - 1)).map fun row => triRow d row (List.range row)

/-! ### fit -/

/-- Shared locations of `fit`: the entries of `centroids_candidates`, `centroids_candidates_prev` and
`candidates_losses` (KMeans.hpp:161, 175, 181) and the data set. -/
inductive FitLoc where
  | cand (i : Nat)
  | prev (i : Nat)
  | loss (i : Nat)
  | data
  deriving DecidableEq

/-- Types of the locations of `fit`. -/
abbrev FitVal (X C K : Type) : FitLoc → Type
  | .cand _ => C
  | .prev _ => C
  | .loss _ => K
  | .data => X

section Fit

variable {X S C K : Type} (init : X → C → Option S) (step : X → S → Option S) (cent : S → C)
  (loss : X → S → K) (same : C → C → Bool) (o : KMeans.Options)

/-- The loss of a candidate is stored (KMeans.hpp:221, KMedoids.hpp:229 and 315). -/
def fitTail (c : Nat) (s : S) : Prog (FitVal X C K) Bool :=
  .read (V := FitVal X C K) .data fun x => .write (V := FitVal X C K) (.loss c) (loss x s) (.ret true)

/-- The loop over the iterations in `fit` (KMeans.hpp:193-217 and 219-221; KMedoids.hpp:204-230, 290-316)
for the candidate `c`; the algorithm object `s` is local to the thread.  The result is `false` when a
step is undefined. -/
def fitLoop (c : Nat) : Nat → S → Nat → Prog (FitVal X C K) Bool
  | 0, s, _ => fitTail loss c s
  | iter + 1, s, pat => .read (V := FitVal X C K) .data fun x =>
    match step x s with
    | none => .ret false
    | some s' =>
      .write (V := FitVal X C K) (.cand c) (cent s')
        (if o.earlyStopping then
          .read (V := FitVal X C K) (.cand c) fun a => .read (V := FitVal X C K) (.prev c) fun b =>
            if same a b then
              if pat = o.patience then fitTail loss c s'
              else .read (V := FitVal X C K) (.cand c) fun a =>
                .write (V := FitVal X C K) (.prev c) a (fitLoop c iter s' (pat + 1))
            else .read (V := FitVal X C K) (.cand c) fun a =>
              .write (V := FitVal X C K) (.prev c) a (fitLoop c iter s' 0)
        else .read (V := FitVal X C K) (.cand c) fun a =>
          .write (V := FitVal X C K) (.prev c) a (fitLoop c iter s' 0))

/-- One iteration of the parallel loop of `fit` (KMeans.hpp:185-222). -/
def fitThread (c : Nat) : Prog (FitVal X C K) Bool :=
  .read (V := FitVal X C K) .data fun x => .read (V := FitVal X C K) (.cand c) fun a =>
    match init x a with
    | none => .ret false
    | some s => fitLoop step cent loss same o c o.maxIter s 0

/-- The memory before the parallel loop of `fit`: the candidates, empty containers as previous
candidates and zero losses (KMeans.hpp:161-181). -/
def fitMem (x : X) (none' : C) (zero : K) (cands : Nat → C) : Mem (FitVal X C K)
  | .cand i => cands i
  | .prev _ => none'
  | .loss _ => zero
  | .data => x

/-- The thread ended without an undefined step. -/
def Prog.ok {L : Type} {V : L → Type} : Prog V Bool → Bool
  | .ret b => b
  | _ => false

/-- The end of `fit` (KMeans.hpp:223-229) on the memory after the loop over `n` candidates; undefined
when a step was. -/
def fitEnd [LinearOrder K] (n : Nat) (cfg : Config (FitVal X C K) Bool) : Option C :=
  if cfg.1.all Prog.ok then do
    let i ← Stats.argmin none ((List.range n).map fun c => (cfg.2 (.loss c) : K))
    if i < n then some (cfg.2 (.cand i)) else none
  else none

end Fit

/-! ### find -/

/-- The loop of `UnionFind::find` (UnionFind.hpp:46-55) with its accesses to `parents_`; `fuel` bounds
the number of iterations and `none` means that it was too small. -/
def findProg : Nat → Nat → Prog (fun _ : Nat => Nat) (Option Nat)
  | 0, _ => .ret none
  | fuel + 1, index => .read (V := fun _ : Nat => Nat) index fun p =>
    if index = p then .ret (some index)
    else .read (V := fun _ : Nat => Nat) index fun temp =>
      .read (V := fun _ : Nat => Nat) temp fun g =>
        .write (V := fun _ : Nat => Nat) index g (findProg fuel temp)

end Verif.Parallel
