import Verif.Model.Boruvka
import Verif.Model.DualTree

/-
Model of `make_tree_2` (datastruct/graph/spanning_tree/BoruvkasAlgorithm.hpp:464-586), the variant of
Borůvka's algorithm that uses the dual-tree search.  `step_dual_tree_parallel` (lines 509-564) is never
called and is left out.
-/

namespace Verif.Boruvka

open Verif.KDTree Verif.Buffer Verif.Search Verif.DualTree

variable {K : Type} [LinearOrder K] {D : Type} [LinearOrder D]

/-- The k-d tree over a component (BoruvkasAlgorithm.hpp:484-493).  It reorders the component.  The
options leave `max_depth` at its default `common::infinity<std::size_t>()`, which is 0
(datastruct/tree/kdtree/KDTree.hpp:63). -/
def queryTree (eqv : K → K → Bool) (x : Nat → Nat → K) (policy : List Nat → Nat → Box K → Nat) (nf : Nat)
    (vmax vlowest : K) (c : List Nat) : Option (List Nat × KDTree.Tree K) :=
  make eqv x policy (max 40 (Nat.sqrt c.length)) 0 nf vmax vlowest c

/-- The searcher with the buffers `WithUnionFind` of the component `rep`. -/
def ufEnv (env : Env K D UF.State) (cand : Nat → Nat → Option D) (rep : Nat) : Env K D UF.State :=
  { env with offer := fun q s b i => ufOffer (cand q) rep (s, b) i }

/-- The first loop of `step_dual_tree_sequential` (BoruvkasAlgorithm.hpp:483-500): the reordered
components and the edge of every component, in iteration order. -/
def dualEdges (build : List Nat → Option (List Nat × KDTree.Tree K)) (env : Env K D UF.State)
    (cand : Nat → Nat → Option D) (t : KDTree.Tree K) :
    List (Nat × List Nat) → UF.State →
      Option (UF.State × List (Nat × List Nat) × List (Nat × ClosestPair.Edge D))
  | [], u => some (u, [], [])
  | (k, c) :: rest, u => do
    let (c, tq) ← build c
    let (u, e) ← dualSearch (ufEnv env cand k) u tq t
    let (u, cs, es) ← dualEdges build env cand t rest u
    some (u, (k, c) :: cs, (k, e) :: es)

/-- `step_dual_tree_sequential` (BoruvkasAlgorithm.hpp:464-507).  The core distances are ignored. -/
def stepDualTree (build : List Nat → Option (List Nat × KDTree.Tree K)) (env : Env K D UF.State)
    (cand : Nat → Nat → Option D) (t : KDTree.Tree K) (ord : Orders D) (round : Nat) (f : Forest D) :
    Option (Forest D) := do
  let (u, cs, es) ← dualEdges build env cand t (ord.comps round f.comps) f.uf
  (ord.edges round es).foldlM (fun f e => mergeComponents f e.2) { f with comps := cs, uf := u }

/-- The `while` loop of `make_tree_2` (BoruvkasAlgorithm.hpp:577-582).  Each unit of fuel is one
evaluation of the loop condition. -/
def dualLoop (build : List Nat → Option (List Nat × KDTree.Tree K)) (env : Env K D UF.State)
    (cand : Nat → Nat → Option D) (t : KDTree.Tree K) (ord : Orders D) :
    Nat → Nat → Forest D → Option (Forest D)
  | 0, _, _ => none
  | fuel + 1, round, f =>
    if f.comps.length > 1 then do
      let f ← stepDualTree build env cand t ord round f
      dualLoop build env cand t ord fuel (round + 1) f
    else some f

/-- `make_tree_2` (BoruvkasAlgorithm.hpp:566-585); `env.capacity` is `k_nearest_neighbors_`. -/
def makeTree2 (build : List Nat → Option (List Nat × KDTree.Tree K)) (env : Env K D UF.State)
    (x : Nat → Nat → K) (gap : K → K → D) (dist : Nat → Nat → D) (t : KDTree.Tree K) (ord : Orders D)
    (n fuel : Nat) : Option (List (ClosestPair.Edge D)) := do
  let f ← Forest.init n
  let _ ← coreDistances x gap dist env.inf t n env.capacity
  let f ← dualLoop build env (fun a b => some (dist a b)) t ord fuel 0 f
  some f.mst

end Verif.Boruvka
