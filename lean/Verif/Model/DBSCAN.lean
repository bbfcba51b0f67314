import Verif.Model.Search

/-
Model of dbscan/DBSCAN.hpp.

`query i` is the radius query around sample `i`:
`searcher(Unsorted(BallView(features of i, radius))).indices()`.  It is a parameter of the loops
and is instantiated with the model of the tree search in `predictTree`.  Labels are natural numbers
(`std::size_t`; at most `n_samples` labels are used, so they do not overflow).  `none` is an
out-of-range access, a failing query or missing fuel.
-/

namespace Verif.DBSCAN

/-- `visited_indices` and `predictions` (DBSCAN.hpp:111-117). -/
structure St where
  visited : List Bool
  pred : List Nat
deriving DecidableEq, Repr

/-- `std::copy_if` with the predicate "not visited" (DBSCAN.hpp:178-183). -/
def filterUnvisited (visited : List Bool) : List Nat → Option (List Nat)
  | [] => some []
  | y :: ys => do
    let v ← visited[y]?
    let rest ← filterUnvisited visited ys
    some (if v then rest else y :: rest)

/-- `predict_inner` (DBSCAN.hpp:151-191).  The loop index runs over a vector that grows at the end;
the list argument is the part of the vector that has not been processed yet. -/
def inner (query : Nat → Option (List Nat)) (minSamples label : Nat) :
    Nat → List Nat → St → Option St
  | 0, _, _ => none
  | _ + 1, [], s => some s
  | fuel + 1, x :: rest, s => do
    let v ← s.visited[x]?
    let (visited, rest) ←
      if v then some (s.visited, rest)
      else do
        let visited := s.visited.set x true
        let nb ← query x
        if nb.length > minSamples then do
          let new ← filterUnvisited visited nb
          some (visited, rest ++ new)
        else some (visited, rest)
    let p ← s.pred[x]?
    let pred := if p = 0 then s.pred.set x label else s.pred
    inner query minSamples label fuel rest { visited := visited, pred := pred }

/-- Body of the loop of `predict` (DBSCAN.hpp:120-147) for one entry point; the state carries the
last label used.  Fuel of the inner loop: `n * n + n + 1`. -/
def outerStep (query : Nat → Option (List Nat)) (minSamples n : Nat) (sl : St × Nat) (e : Nat) :
    Option (St × Nat) := do
  let (s, label) := sl
  let v ← s.visited[e]?
  if v then some (s, label)
  else do
    let visited := s.visited.set e true
    let nb ← query e
    if e < s.pred.length then
      if nb.length > minSamples then do
        let label := label + 1
        let pred := s.pred.set e label
        let s ← inner query minSamples label (n * n + n + 1) nb { visited := visited, pred := pred }
        some (s, label)
      else some ({ visited := visited, pred := s.pred.set e 0 }, label)
    else none

/-- `predict` (DBSCAN.hpp:103-149): the predictions. -/
def predict (query : Nat → Option (List Nat)) (minSamples n : Nat) : Option (List Nat) := do
  let (s, _) ← (List.range n).foldlM (outerStep query minSamples n)
    ({ visited := List.replicate n false, pred := List.replicate n 0 }, 0)
  some s.pred

/-- The radius query of DBSCAN.hpp:127-130 and 169-172: a tree search with an unlimited `Unsorted`
buffer (`inf` is `infinity<DistanceType>()`) bounded by a ball around the features of sample `i`.
`dist i j` is the distance of sample `j` to the centre `i`. -/
def radiusQuery {K D : Type} [LT K] [DecidableLT K] [LT D] [DecidableLT D] [LE D]
    [DecidableLE D] (x : Nat → Nat → K) (gap : K → K → D)
    (dist : Nat → Nat → D) (radius inf : D) (t : KDTree.Tree K) (i : Nat) : Option (List Nat) :=
  (Search.search x (x i) (Search.staticOps x (x i) gap (Search.candBall (dist i) radius)) t
    (Buffer.mk inf 0)).map (·.indices)

/-- `DBSCAN::predict` on the tree of the searcher it is given (DBSCAN.hpp:104-149; `n` is `n_samples()` of
the searcher). -/
def predictTree {K D : Type} [LT K] [DecidableLT K] [LT D] [DecidableLT D] [LE D]
    [DecidableLE D] (x : Nat → Nat → K) (gap : K → K → D)
    (dist : Nat → Nat → D) (radius inf : D) (t : KDTree.Tree K) (minSamples n : Nat) :
    Option (List Nat) :=
  predict (radiusQuery x gap dist radius inf t) minSamples n

end Verif.DBSCAN
