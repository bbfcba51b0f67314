import Verif.Model.Parallel
import Verif.Model.SharedIndices

/-
Searches as threads: the accesses of `Searcher::operator()` (search/Search.hpp:137-142,
search/TreeTraverser.hpp:191-269) to the memory that several searches share, which is the index array the
nodes point into and the samples.  `operator()` is `const`.  The buffer with its query is moved into the call
and is local to the thread; the nodes are never written after the construction and are part of the program;
copies of the shared pointers to nodes only touch reference counts, which are atomic.  A sample is read as one
object, and repeated reads of one location within one expression are one read.
-/

namespace Verif.Parallel

open KDTree

/-- Shared locations of the searches: elements of the index array, and samples. -/
inductive SearchLoc where
  | index (pos : Nat)
  | sample (i : Nat)
  deriving DecidableEq

/-- Types of the locations. -/
abbrev SearchVal (K : Type) : SearchLoc → Type
  | .index _ => Nat
  | .sample _ => Nat → K

/-- One program after the other. -/
def Prog.bind {L : Type} {V : L → Type} {A B : Type} (f : A → Prog V B) : Prog V A → Prog V B
  | .ret a => f a
  | .read l k => .read l fun v => (k v).bind f
  | .write l v k => .write l v (k.bind f)

/-- The same for programs that may end in an undefined state (`none`). -/
def Prog.andThen {L : Type} {V : L → Type} {A B : Type} (p : Prog V (Option A)) (f : A → Prog V (Option B)) :
    Prog V (Option B) :=
  p.bind fun
    | none => .ret none
    | some a => f a

/-- A search buffer and its query: `offer` gets the index and the features of a sample, `visit` the features of
the pivot and the axis (`Search.BufferOps` with the samples as arguments). -/
structure LocalOps (K B : Type) where
  query : Nat → K
  offer : B → Nat → (Nat → K) → Option B
  visit : B → Bool → (Nat → K) → Nat → Bool

section

variable {K : Type} [LT K] [DecidableLT K] {B : Type} (ops : LocalOps K B)

/-- `partial_search_impl` (search/buffer/Unsorted.hpp:42-61) on positions of the index array. -/
def offerProg : List Nat → B → Prog (SearchVal K) (Option B)
  | [], b => .ret (some b)
  | p :: ps, b => .read (V := SearchVal K) (.index p) fun i => .read (V := SearchVal K) (.sample i) fun y =>
    match ops.offer b i y with
    | none => .ret none
    | some b => offerProg ps b

/-- One step from a child up to its parent, with the position of the pivot of the parent. -/
structure PosFrame (K : Type) where
  pivot : Nat
  axis : Nat
  isLeft : Bool
  sibling : Shape K

/-- `recursive_search_to_leaf_node` (search/TreeTraverser.hpp:234-252), `select_closest_child`
(datastruct/tree/kdtree/KDNodeView.hpp:250-272). -/
def descendProg : Shape K → B → Prog (SearchVal K) (Option (B × List (PosFrame K)))
  | .leaf first last _, b => (offerProg ops (List.range' first (last - first)) b).andThen fun b =>
      .ret (some (b, []))
  | .node p a _ l r, b => (offerProg ops [p] b).andThen fun b =>
      .read (V := SearchVal K) (.index p) fun i => .read (V := SearchVal K) (.sample i) fun y =>
        if ops.query a < y a then
          (descendProg l b).andThen fun (b, fs) => .ret (some (b, fs ++ [⟨p, a, true, r⟩]))
        else
          (descendProg r b).andThen fun (b, fs) => .ret (some (b, fs ++ [⟨p, a, false, l⟩]))

/-- The way up (search/TreeTraverser.hpp:226-229, 256-269): `select_sibling_node`
(KDNodeView.hpp:209-246) reads the pivot of the parent; `go` is the search of a sibling. -/
def climbProg (go : Shape K → B → Prog (SearchVal K) (Option B)) :
    List (PosFrame K) → B → Prog (SearchVal K) (Option B)
  | [], b => .ret (some b)
  | f :: fs, b =>
    .read (V := SearchVal K) (.index f.pivot) fun i => .read (V := SearchVal K) (.sample i) fun y =>
      if ops.visit b f.isLeft y f.axis then (go f.sibling b).andThen fun b => climbProg go fs b
      else climbProg go fs b

/-- `single_tree_traversal` (search/TreeTraverser.hpp:220-230). -/
def traverseProg : Nat → Shape K → B → Prog (SearchVal K) (Option B)
  | 0, _, _ => .ret none
  | fuel + 1, s, b => (descendProg ops s b).andThen fun (b, fs) => climbProg ops (traverseProg fuel) fs b

/-- Number of nodes. -/
def shapeCount : Shape K → Nat
  | .leaf _ _ _ => 1
  | .node _ _ _ l r => shapeCount l + shapeCount r + 1

/-- A call of `Searcher::operator()` (search/Search.hpp:137-142) with a buffer. -/
structure Job (K B : Type) where
  tree : Shape K
  ops : LocalOps K B
  buffer : B

/-- The thread of a call. -/
def Job.prog (j : Job K B) : Prog (SearchVal K) (Option B) :=
  traverseProg j.ops (shapeCount j.tree) j.tree j.buffer

/-- The memory: the index array and the samples. -/
def searchMem (arr : List Nat) (x : Nat → Nat → K) : Mem (SearchVal K)
  | .index p => arr.getD p 0
  | .sample i => x i

/-- `std::iter_swap` of two elements of the index array, the only way the construction of a tree changes it
(common/algorithms/Sorting.hpp:113, 131, 139). -/
def swapProg {A : Type} (i j : Nat) (a : A) : Prog (SearchVal K) A :=
  .read (V := SearchVal K) (.index i) fun u => .read (V := SearchVal K) (.index j) fun v =>
    .write (V := SearchVal K) (.index i) v (.write (V := SearchVal K) (.index j) u (.ret a))

end

end Verif.Parallel
