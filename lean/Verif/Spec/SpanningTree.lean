import Mathlib.Logic.Relation
import Mathlib.Data.List.Basic

/-
Specification of spanning trees as lists of weighted edges, independent of the model.
-/

namespace Verif.Graph

/-- `a` and `b` are linked by edges of the list, in either direction. -/
def Linked {D : Type} (es : List (Nat × Nat × D)) (a b : Nat) : Prop :=
  Relation.EqvGen (fun a b => ∃ w, (a, b, w) ∈ es) a b

/-- The edges connect the vertices `0, ..., n - 1`. -/
def Connects {D : Type} (n : Nat) (es : List (Nat × Nat × D)) : Prop :=
  ∀ a b, a < n → b < n → Linked es a b

/-- A spanning tree of the vertices `0, ..., n - 1`: edges between vertices, `n - 1` of them,
connecting all vertices, and no edge closes a cycle with the others. -/
structure IsSpanningTree {D : Type} (n : Nat) (es : List (Nat × Nat × D)) : Prop where
  vertices : ∀ e ∈ es, e.1 < n ∧ e.2.1 < n
  length : es.length + 1 = n
  connects : Connects n es
  acyclic : ∀ pre e post, es = pre ++ e :: post → ¬ Linked (pre ++ post) e.1 e.2.1

/-- Total weight. -/
def total {D : Type} [Zero D] [Add D] (es : List (Nat × Nat × D)) : D :=
  (es.map (fun e => e.2.2)).sum

/-- A minimum spanning tree of the complete graph with weights `wt`. -/
structure IsMinimum {D : Type} [Zero D] [Add D] [LE D] (n : Nat) (wt : Nat → Nat → D)
    (es : List (Nat × Nat × D)) : Prop where
  tree : IsSpanningTree n es
  weights : ∀ e ∈ es, e.2.2 = wt e.1 e.2.1
  minimal : ∀ fs, IsSpanningTree n fs → (∀ e ∈ fs, e.2.2 = wt e.1 e.2.1) → total es ≤ total fs

/-- `a` can be reached from `b` through vertices below `n`, each close to the next. -/
def Reach (n : Nat) (close : Nat → Nat → Prop) (a b : Nat) : Prop :=
  Relation.EqvGen (fun a b => a < n ∧ b < n ∧ close a b) a b

end Verif.Graph
