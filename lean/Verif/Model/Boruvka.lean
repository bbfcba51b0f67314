import Verif.Model.ClosestPair

/-
Model of datastruct/graph/spanning_tree/BoruvkasAlgorithm.hpp (`make_tree`) and CoreDistances.hpp.

The unordered map from representatives to components is a list of pairs; the order in which the
library iterates over it, and over the map of chosen edges, is unspecified: both orders are given
by `Orders`, one reordering for each round.  The reference indexer is the k-d tree `t` over all
samples.  Debug output and `assert` are left out.
-/

namespace Verif.Boruvka

open Verif.KDTree Verif.Buffer Verif.Search Verif.ClosestPair

variable {K : Type} [LinearOrder K] {D : Type} [LinearOrder D]

/-- Data members of `Forest` (BoruvkasAlgorithm.hpp:198-203). -/
structure Forest (D : Type) where
  mst : List (Edge D)
  comps : List (Nat × List Nat)
  uf : UF.State
deriving DecidableEq, Repr

/-- Constructor of `Forest` (BoruvkasAlgorithm.hpp:93-102).  With no samples `reserve(n - 1)` asks
for `2^64 - 1` elements and throws: `none`. -/
def Forest.init (n : Nat) : Option (Forest D) :=
  if n = 0 then none
  else some { mst := [], comps := (List.range n).map (fun i => (i, [i])), uf := UF.init n }

/-- `map[key]` read; a missing key gives the empty component. -/
def valueAt (m : List (Nat × List Nat)) (k : Nat) : List Nat :=
  match m.find? (fun p => p.1 == k) with
  | some p => p.2
  | none => []

/-- `map[key].insert(map[key].end(), moved...)`; a missing key is created. -/
def appendAt (m : List (Nat × List Nat)) (k : Nat) (moved : List Nat) : List (Nat × List Nat) :=
  if m.any (fun p => p.1 == k) then
    m.map (fun p => if p.1 = k then (p.1, p.2 ++ moved) else p)
  else m ++ [(k, moved)]

/-- `Forest::merge_components` (BoruvkasAlgorithm.hpp:140-176). -/
def mergeComponents (f : Forest D) (e : Edge D) : Option (Forest D) := do
  let (u, r1) ← UF.find f.uf e.1
  let (u, r2) ← UF.find u e.2.1
  if r1 = r2 then some { f with uf := u }
  else do
    let (u, common) ← UF.merge u e.1 e.2.1
    let retained := if r1 = common then r1 else r2
    let discarded := if r1 = common then r2 else r1
    let m := appendAt f.comps retained (valueAt f.comps discarded)
    some { mst := f.mst ++ [e], comps := m.filter (fun p => p.1 != discarded), uf := u }

/-- The first loop of `step_sequential` (BoruvkasAlgorithm.hpp:244-271, 286-317): the closest edge of
every component, in iteration order. -/
def closestEdges (x : Nat → Nat → K) (gap : K → K → D) (dist : Nat → Nat → D)
    (weight : Nat → Nat → D → Option D) (inf : D) (t : KDTree.Tree K) :
    List (Nat × List Nat) → UF.State → Option (UF.State × List (Nat × Edge D))
  | [], u => some (u, [])
  | (k, c) :: rest, u => do
    let (u, e) ← shortestFrom x x gap dist weight inf t k c u (defaultEdge inf)
    let (u, es) ← closestEdges x gap dist weight inf t rest u
    some (u, (k, e) :: es)

/-- The iteration orders of the two unordered maps, for each round. -/
structure Orders (D : Type) where
  comps : Nat → List (Nat × List Nat) → List (Nat × List Nat)
  edges : Nat → List (Nat × Edge D) → List (Nat × Edge D)

/-- `step_sequential`, both overloads (BoruvkasAlgorithm.hpp:240-278, 281-324). -/
def stepSequential (x : Nat → Nat → K) (gap : K → K → D) (dist : Nat → Nat → D)
    (weight : Nat → Nat → D → Option D) (inf : D) (t : KDTree.Tree K) (ord : Orders D) (round : Nat)
    (f : Forest D) : Option (Forest D) := do
  let (u, es) ← closestEdges x gap dist weight inf t (ord.comps round f.comps) f.uf
  (ord.edges round es).foldlM (fun f e => mergeComponents f e.2) { f with uf := u }

/-- `find_pair_at_smallest_component` (BoruvkasAlgorithm.hpp:330-341): the first of the smallest
components in iteration order, given the best so far. -/
def smallest : List (Nat × List Nat) → Nat × List Nat → Nat × List Nat
  | [], best => best
  | p :: rest, best => smallest rest (if p.2.length < best.2.length then p else best)

/-- `dual_component_step_sequential`, both overloads (BoruvkasAlgorithm.hpp:327-368, 371-418).
Dereferencing the begin iterator of an empty map is undefined. -/
def dualComponentStep (x : Nat → Nat → K) (gap : K → K → D) (dist : Nat → Nat → D)
    (weight : Nat → Nat → D → Option D) (inf : D) (t : KDTree.Tree K) (ord : Orders D) (round : Nat)
    (f : Forest D) : Option (Forest D) :=
  match ord.comps round f.comps with
  | [] => none
  | p :: rest => do
    let (k, c) := smallest rest p
    let (u, e) ← shortestFrom x x gap dist weight inf t k c f.uf (defaultEdge inf)
    mergeComponents { f with uf := u } e

/-- The `while` loop of `make_tree` (BoruvkasAlgorithm.hpp:435-445, 447-457).  Each unit of fuel is
one evaluation of the loop condition. -/
def makeLoop (x : Nat → Nat → K) (gap : K → K → D) (dist : Nat → Nat → D)
    (weight : Nat → Nat → D → Option D) (inf : D) (t : KDTree.Tree K) (ord : Orders D) :
    Nat → Nat → Forest D → Option (Forest D)
  | 0, _, _ => none
  | fuel + 1, round, f =>
    if f.comps.length > 1 then do
      let f ← if f.comps.length = 2 then dualComponentStep x gap dist weight inf t ord round f
        else stepSequential x gap dist weight inf t ord round f
      makeLoop x gap dist weight inf t ord fuel (round + 1) f
    else some f

/-- The body of the loop of `make_static_core_distances` (CoreDistances.hpp:46-52). -/
def coreDistance (x : Nat → Nat → K) (gap : K → K → D) (dist : Nat → Nat → D) (inf : D)
    (t : KDTree.Tree K) (k q : Nat) : Option D := do
  let b ← search x (x q) (staticOps x (x q) gap (candAll (dist q))) t (Buffer.mk inf k)
  some b.furthestDistance

/-- `make_static_core_distances` (CoreDistances.hpp:40-54). -/
def coreDistances (x : Nat → Nat → K) (gap : K → K → D) (dist : Nat → Nat → D) (inf : D)
    (t : KDTree.Tree K) (n k : Nat) : Option (List D) :=
  (List.range n).mapM (coreDistance x gap dist inf t k)

/-- The k-mutual reachability distance of BoruvkasAlgorithm.hpp:308-309, 406-407. -/
def mutualReach (core : List D) (q i : Nat) (d : D) : Option D := do
  let a ← core[q]?
  let b ← core[i]?
  some (max (max a b) d)

/-- `make_tree` (BoruvkasAlgorithm.hpp:422-460). -/
def makeTree (x : Nat → Nat → K) (gap : K → K → D) (dist : Nat → Nat → D) (inf : D)
    (t : KDTree.Tree K) (ord : Orders D) (n k fuel : Nat) : Option (List (Edge D)) := do
  let f ← Forest.init n
  if k > 1 then do
    let core ← coreDistances x gap dist inf t n k
    let f ← makeLoop x gap dist (mutualReach core) inf t ord fuel 0 f
    some f.mst
  else do
    let f ← makeLoop x gap dist plainWeight inf t ord fuel 0 f
    some f.mst

end Verif.Boruvka
