import Verif.Model.MachineInt
import Verif.Model.UnionFind
import Verif.Model.Levenshtein

/-
Model of the code that counts in an integral type chosen by the caller: `std::iota`, the identity mask,
the elements of an interval, the union-find and the edit distance, with the arithmetic of the C++ types
(see Model/MachineInt.lean for the arithmetic).
-/

namespace Verif.MachineInt

/-- `++v` for an object of type `t`: the sum has the promoted type and is converted back. -/
def IntType.incr (t : IntType) (v : ℤ) : Option ℤ := do
  let w ← t.promoted.result (v + 1)
  some (t.convert w)

/-- `std::iota` on `n` elements of type `t` from the value `v`: `*first = value; ++value` for every element,
the last one included. -/
def iota (t : IntType) : Nat → ℤ → Option (List ℤ)
  | 0, _ => some []
  | n + 1, v => do
    let w ← t.incr v
    let rest ← iota t n w
    some (v :: rest)

/-- `FeaturesMask(n_features)` (datastruct/vector/FeaturesMask.hpp:23-24, 97-101): the indices it holds. -/
def identityMask (t : IntType) (n : Nat) : Option (List ℤ) := iota t n (t.convert 0)

/-- `FeaturesMask{n}`, with braces: the constructor with an initializer list
(datastruct/vector/FeaturesMask.hpp:26-27) is preferred, so the mask holds the single index `n`. -/
def braceMask (t : IntType) (n : Nat) : Option (List ℤ) := some [t.convert n]

/-- The pool of `make_n_elements_from_interval` (common/math/random/Sampling.hpp:29-40): the length is
the difference of the promoted type, converted to `std::size_t`; a negative difference is excluded by the
assertion of the code. -/
def intervalElements (t : IntType) (first second : ℤ) : Option (List ℤ) := do
  let d ← t.promoted.result (second - first)
  iota t d.toNat first

/-! ### union-find -/

/-- Reading an array at an index of an integral type. -/
def readAt (l : List ℤ) (i : ℤ) : Option ℤ := if i < 0 then none else l[i.toNat]?

/-- Writing an array at an index of an integral type that has been read before. -/
def writeAt (l : List ℤ) (i v : ℤ) : List ℤ := l.set i.toNat v

/-- `UnionFind<Index>` (datastruct/UnionFind.hpp:25-29) with elements of the type `Index`. -/
structure UFState where
  parents : List ℤ
  ranks : List ℤ
deriving DecidableEq

/-- Constructor (datastruct/UnionFind.hpp:32-39). -/
def ufInit (t : IntType) (n : Nat) : Option UFState := do
  let parents ← iota t n (t.convert 0)
  some ⟨parents, List.replicate n 0⟩

/-- The loop of `find` (datastruct/UnionFind.hpp:48-56); one unit of fuel per test of the condition. -/
def ufFindLoop : Nat → List ℤ → ℤ → Option (List ℤ × ℤ)
  | 0, _, _ => none
  | fuel + 1, parents, index => do
    let temp ← readAt parents index
    if index = temp then some (parents, index)
    else do
      let grand ← readAt parents temp
      ufFindLoop fuel (writeAt parents index grand) temp

/-- `find` (datastruct/UnionFind.hpp:48-56). -/
def ufFind (s : UFState) (index : ℤ) : Option (UFState × ℤ) := do
  let (parents, root) ← ufFindLoop (2 * s.parents.length + 1) s.parents index
  some ({ s with parents := parents }, root)

/-- `merge` (datastruct/UnionFind.hpp:59-79): the rank is an object of type `Index` too. -/
def ufMerge (t : IntType) (s : UFState) (index1 index2 : ℤ) : Option (UFState × ℤ) := do
  let (s, representative1) ← ufFind s index1
  let (s, representative2) ← ufFind s index2
  if representative1 = representative2 then some (s, representative1)
  else do
    let rank1 ← readAt s.ranks representative1
    let rank2 ← readAt s.ranks representative2
    if rank1 = rank2 then do
      let p1 ← readAt s.parents representative1
      let parents := writeAt s.parents representative2 p1
      let rank ← t.incr rank1
      let r ← readAt parents representative1
      some (⟨parents, writeAt s.ranks representative1 rank⟩, r)
    else if rank1 > rank2 then
      some ({ s with parents := writeAt s.parents representative2 representative1 }, representative1)
    else
      some ({ s with parents := writeAt s.parents representative1 representative2 }, representative2)

/-- One call of a client; the arguments are converted to `Index`.  The result is the new state and the
value returned. -/
def ufStep (t : IntType) (s : UFState) : UF.Op → Option (UFState × ℤ)
  | .find a => ufFind s (t.convert a)
  | .merge a b => ufMerge t s (t.convert a) (t.convert b)

/-- A history of calls, with the values returned. -/
def ufRun (t : IntType) (s : UFState) : List UF.Op → Option (UFState × List ℤ)
  | [] => some (s, [])
  | op :: ops => do
    let (s, r) ← ufStep t s op
    let (s, rs) ← ufRun t s ops
    some (s, r :: rs)

/-! ### edit distance -/

section

variable {α : Type} [DecidableEq α]

/-- Body of the inner loop of `levenshtein_distance` (common/math/heuristics/Distances.hpp:221-232) with
costs of the type `c`, the promoted type of the sum of two elements. -/
def levInner (c : IntType) (left right : List α) (i : Nat) (prev cur : List ℤ) (j : Nat) :
    Option (List ℤ) := do
  let p1 ← prev[j + 1]?
  let c0 ← cur[j]?
  let a ← left[i]?
  let b ← right[j]?
  let p0 ← prev[j]?
  let deletion ← c.result (p1 + 1)
  let insertion ← c.result (c0 + 1)
  let substitution ← if a = b then some p0 else c.result (p0 + 1)
  if j + 1 < cur.length then
    some (cur.set (j + 1) (min deletion (min insertion substitution)))
  else none

/-- Body of the outer loop (Distances.hpp:218-234): `feature_index_left + 1` is converted to `c`. -/
def levOuter (c : IntType) (left right : List α) (bufs : List ℤ × List ℤ) (i : Nat) :
    Option (List ℤ × List ℤ) := do
  let (prev, cur) := bufs
  if 0 < cur.length then do
    let cur := cur.set 0 (c.convert (i + 1))
    let cur ← (List.range right.length).foldlM (levInner c left right i prev) cur
    some (cur, prev)
  else none

/-- `levenshtein_distance` (Distances.hpp:195-237). -/
def levMachine (c : IntType) (left right : List α) : Option ℤ := do
  let row ← iota c (right.length + 1) (c.convert 0)
  let (prev, _) ← (List.range left.length).foldlM (levOuter c left right)
    (row, List.replicate (right.length + 1) 0)
  prev[right.length]?

end

end Verif.MachineInt
