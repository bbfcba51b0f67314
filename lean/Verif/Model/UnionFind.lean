/-
Model of `ffcl::datastruct::UnionFind` (datastruct/UnionFind.hpp).

The two heap arrays are `List Nat`; an access outside of the array (undefined
behaviour in C++) is the outcome `none`.  The `while` loop of `find` takes a
fuel argument that counts loop tests; running out of fuel is `none` too.
Index type overflow is not modelled (indices are `Nat`).
-/

namespace Verif.UF

/-- `UnionFind` data members (datastruct/UnionFind.hpp:27-29): `parents_` and `ranks_`.
`n_samples_` is only used for printing and allocation and equals the length of both arrays. -/
structure State where
  parents : List Nat
  ranks : List Nat
deriving DecidableEq, Repr

/-- Constructor (datastruct/UnionFind.hpp:33-39): every element is its own parent
(`std::iota`), `std::make_unique<Index[]>` zero-initialises the ranks. -/
def init (n : Nat) : State :=
  { parents := List.range n, ranks := List.replicate n 0 }

/-- Constructor with labels (datastruct/UnionFind.hpp:41-45): the array of the caller is the array of
parents, whatever it holds; the ranks are zero. -/
def withLabels (n : Nat) (labels : List Nat) : State :=
  { parents := labels, ranks := List.replicate n 0 }

/-- The `while` loop of `find` (datastruct/UnionFind.hpp:48-56).  Each unit of fuel is one
evaluation of the loop condition. Returns the rewritten parent array and the final index. -/
def findLoop : Nat → List Nat → Nat → Option (List Nat × Nat)
  | 0, _, _ => none
  | fuel + 1, parents, index => do
    let temp ← parents[index]?
    if index = temp then
      some (parents, index)
    else do
      let grand ← parents[temp]?
      findLoop fuel (parents.set index grand) temp

/-- `find` (datastruct/UnionFind.hpp:48-56).  The method is `const` but writes through the
`unique_ptr`, hence the new state in the result.  Fuel: more than the loop needs for any content of the
array (C105). -/
def find (s : State) (index : Nat) : Option (State × Nat) := do
  let (parents, root) ← findLoop (2 * s.parents.length + 1) s.parents index
  some ({ s with parents := parents }, root)

/-- `merge` (datastruct/UnionFind.hpp:59-79). -/
def merge (s : State) (index1 index2 : Nat) : Option (State × Nat) := do
  let (s, representative1) ← find s index1
  let (s, representative2) ← find s index2
  if representative1 = representative2 then
    some (s, representative1)
  else do
    let rank1 ← s.ranks[representative1]?
    let rank2 ← s.ranks[representative2]?
    if rank1 = rank2 then do
      let p1 ← s.parents[representative1]?
      let parents := s.parents.set representative2 p1
      let r ← parents[representative1]?
      some ({ parents := parents, ranks := s.ranks.set representative1 (rank1 + 1) }, r)
    else if rank1 > rank2 then
      some ({ s with parents := s.parents.set representative2 representative1 }, representative1)
    else
      some ({ s with parents := s.parents.set representative1 representative2 }, representative2)

/-- A client call. -/
inductive Op where
  | find (a : Nat)
  | merge (a b : Nat)
deriving DecidableEq, Repr

/-- Execute one client call, dropping its return value. -/
def step (s : State) : Op → Option State
  | .find a => (find s a).map Prod.fst
  | .merge a b => (merge s a b).map Prod.fst

/-- Execute a history of client calls. -/
def run (s : State) : List Op → Option State
  | [] => some s
  | op :: ops => do
    let s ← step s op
    run s ops

end Verif.UF
