import Mathlib.Logic.Relation
import Mathlib.Data.Finset.Card
import Verif.Model.UnionFind

/-
Specification of union-find that does not mention the parent/rank arrays: two elements are
together when they are related by the equivalence closure of the pairs merged so far.
-/

namespace Verif.UF

/-- The history contains a call `merge(a, b)`. -/
def Merged (ops : List Op) (a b : Nat) : Prop := Op.merge a b ∈ ops

/-- `a` and `b` are in the same set after the history `ops`. -/
def Together (ops : List Op) (a b : Nat) : Prop := Relation.EqvGen (Merged ops) a b

/-- `a` and `b` are in the same set of a union-find built from `labels`, after the history `ops`: they
are connected by merged pairs and by pairs of an element and its label. -/
def Linked (labels : List Nat) (ops : List Op) (a b : Nat) : Prop :=
  Relation.EqvGen (fun a b => labels[a]? = some b ∨ Merged ops a b) a b

/-- All arguments of the history are valid sample indices. -/
def Op.Valid (n : Nat) : Op → Prop
  | .find a => a < n
  | .merge a b => a < n ∧ b < n

end Verif.UF
