import Mathlib.Logic.Function.Basic
import Verif.Model.Search

/-
Model of the lifetime of the set of visited indices of `WithMemory` (search/buffer/WithMemory.hpp:34-88,
122-125) while the buffer is handed to a searcher (search/TreeTraverser.hpp:191-203,
search/Search.hpp:145-152).

The class has the member `visited_indices_` and the reference member `visited_indices_const_reference_`,
which is bound to the member or to a set of the caller.  Its move constructor is the implicit one: it
moves the set and binds the reference to the same object as the reference of the source.
-/

namespace Verif.Lifetime

open Verif.KDTree Verif.Buffer Verif.Search

/-- The sets that are alive, by address. -/
abbrev Heap := Nat → Option (List Nat)

/-- A `WithMemory` object: `self` is the address of its member `visited_indices_`, `ref` the address
that `visited_indices_const_reference_` is bound to, `buf` the base `StaticBuffer`. -/
structure MemBuf (D : Type) where
  self : Nat
  ref : Nat
  buf : Buf D

/-- Constructor with a `const VisitedIndices&` (WithMemory.hpp:39-44, 64-70): the set of the caller is at
the address `ext`. -/
def withReference {D : Type} (inf : D) (k self ext : Nat) (h : Heap) : MemBuf D × Heap :=
  (⟨self, ext, Buffer.mk inf k⟩, Function.update h self (some []))

/-- Constructors with a `VisitedIndices&&` and with a range of indices (WithMemory.hpp:46-57, 72-88): the
set is moved into the member. -/
def withOwned {D : Type} (inf : D) (k self : Nat) (visited : List Nat) (h : Heap) : MemBuf D × Heap :=
  (⟨self, self, Buffer.mk inf k⟩, Function.update h self (some visited))

/-- The implicit move constructor, for a new object at the address `new`; `left s` is what is left in a
set `s` that was moved from (unspecified by the standard, empty in the implementations). -/
def moveTo {D : Type} (left : List Nat → List Nat) (new : Nat) (b : MemBuf D) (h : Heap) :
    MemBuf D × Heap :=
  (⟨new, b.ref, b.buf⟩, Function.update (Function.update h new (h b.self)) b.self ((h b.self).map left))

/-- The implicit destructor. -/
def destroy {D : Type} (b : MemBuf D) (h : Heap) : Heap := Function.update h b.self none

/-- `update_impl` (WithMemory.hpp:90-98) for the candidates of `partial_search_impl`
(WithMemory.hpp:100-120): reading a set that is gone is undefined. -/
def memOffer {D : Type} [LinearOrder D] (h : Heap) (ref : Nat) (cand : Nat → Option D) (b : Buf D) (i : Nat) :
    Option (Buf D) :=
  match cand i with
  | none => some b
  | some d => do
    let visited ← h ref
    if i ∈ visited then some b else b.update i d

/-- The search with a `WithMemory` buffer, in place. -/
def searchIn {K D : Type} [LinearOrder K] [LinearOrder D] (x : Nat → Nat → K) (q : Nat → K)
    (gap : K → K → D) (cand : Nat → Option D) (t : Tree K) (b : MemBuf D) (h : Heap) : Option (MemBuf D) := do
  let r ← search x q ⟨memOffer h b.ref cand, visitSibling x q gap⟩ t b.buf
  some { b with buf := r }

/-- `auto result = searcher(std::move(buffer))` or with a temporary: the buffer is moved to a local variable
at the address `loc` (TreeTraverser.hpp:197), searched with and returned to the address `res`.  With
`elide` the local variable is the result (named return value optimisation), otherwise it is moved there
and destroyed. -/
def callSearcher {K D : Type} [LinearOrder K] [LinearOrder D] (left : List Nat → List Nat) (elide : Bool)
    (loc res : Nat) (x : Nat → Nat → K) (q : Nat → K) (gap : K → K → D) (cand : Nat → Option D) (t : Tree K)
    (b : MemBuf D) (h : Heap) : Option (MemBuf D × Heap) := do
  let m := moveTo left loc b h
  let b2 ← searchIn x q gap cand t m.1 m.2
  if elide then some (b2, m.2)
  else
    let m' := moveTo left res b2 m.2
    some (m'.1, destroy b2 m'.2)

end Verif.Lifetime
