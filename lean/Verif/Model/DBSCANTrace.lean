import Verif.Model.DBSCAN

/-
The loops of dbscan/DBSCAN.hpp with a record of the work done: the radius queries in the order in which
they are made, and the number of iterations of the loop of `predict_inner`.  `predictT_fst`
(Props/DBSCANTrace.lean) shows that the labels are those of Model/DBSCAN.lean.
-/

namespace Verif.DBSCAN

/-- The work done so far. -/
structure Trace where
  queries : List Nat
  steps : Nat
deriving DecidableEq, Repr

/-- `predict_inner` (DBSCAN.hpp:151-191) with its trace. -/
def innerT (query : Nat → Option (List Nat)) (minSamples label : Nat) :
    Nat → List Nat → St → Trace → Option (St × Trace)
  | 0, _, _, _ => none
  | _ + 1, [], s, tr => some (s, tr)
  | fuel + 1, x :: rest, s, tr => do
    let v ← s.visited[x]?
    let r ←
      if v then some (s.visited, rest, tr.queries)
      else do
        let visited := s.visited.set x true
        let nb ← query x
        if nb.length > minSamples then do
          let new ← filterUnvisited visited nb
          some (visited, rest ++ new, tr.queries ++ [x])
        else some (visited, rest, tr.queries ++ [x])
    let p ← s.pred[x]?
    let pred := if p = 0 then s.pred.set x label else s.pred
    innerT query minSamples label fuel r.2.1 { visited := r.1, pred := pred }
      { queries := r.2.2, steps := tr.steps + 1 }

/-- Body of the loop of `predict` (DBSCAN.hpp:120-147) with its trace. -/
def outerStepT (query : Nat → Option (List Nat)) (minSamples n : Nat) (slt : (St × Nat) × Trace) (e : Nat) :
    Option ((St × Nat) × Trace) := do
  let v ← slt.1.1.visited[e]?
  if v then some slt
  else do
    let visited := slt.1.1.visited.set e true
    let nb ← query e
    let tr : Trace := { slt.2 with queries := slt.2.queries ++ [e] }
    if e < slt.1.1.pred.length then
      if nb.length > minSamples then do
        let label := slt.1.2 + 1
        let pred := slt.1.1.pred.set e label
        let r ← innerT query minSamples label (n * n + n + 1) nb { visited := visited, pred := pred } tr
        some ((r.1, label), r.2)
      else some (({ visited := visited, pred := slt.1.1.pred.set e 0 }, slt.1.2), tr)
    else none

/-- `predict` (DBSCAN.hpp:103-149) with its trace. -/
def predictT (query : Nat → Option (List Nat)) (minSamples n : Nat) : Option (List Nat × Trace) := do
  let r ← (List.range n).foldlM (outerStepT query minSamples n)
    (({ visited := List.replicate n false, pred := List.replicate n 0 }, 0), { queries := [], steps := 0 })
  some (r.1.1.pred, r.2)

end Verif.DBSCAN
