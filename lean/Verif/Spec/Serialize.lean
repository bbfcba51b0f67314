import Verif.Model.Serialize

/-
Specification of serialised files: JSON documents, a reader of the token stream that knows nothing
of trees, and readers of the two kinds of documents.
-/

namespace Verif.Serialize

/-- A JSON document. -/
inductive Json (V : Type) where
  | int (i : Int)
  | double (v : V)
  | array (l : List (Json V))
  | object (l : List (Key × Json V))

/-- An array or object under construction; `key` is an object waiting for the value of a key. -/
inductive Frame (V : Type) where
  | array (l : List (Json V))
  | object (l : List (Key × Json V))
  | key (l : List (Key × Json V)) (k : Key)

variable {V : Type}

/-- A complete value is added to the innermost frame; a value where a key is expected is an error. -/
def push (j : Json V) : List (Frame V) → Option (List (Frame V))
  | .array l :: s => some (.array (l ++ [j]) :: s)
  | .key l k :: s => some (.object (l ++ [(k, j)]) :: s)
  | _ => none

/-- The JSON reader: exactly one object, everything closed, nothing after it. -/
def parse : List (Tok V) → List (Frame V) → Option (Json V)
  | [], _ => none
  | .startObject :: ts, s => parse ts (.object [] :: s)
  | .startArray :: ts, s => parse ts (.array [] :: s)
  | .endObject :: ts, .object l :: [] => if ts = [] then some (.object l) else none
  | .endObject :: ts, .object l :: s => (push (.object l) s).bind (parse ts)
  | .endArray :: ts, .array l :: s => (push (.array l) s).bind (parse ts)
  | .string k :: ts, .object l :: s => parse ts (.key l k :: s)
  | .int64 i :: ts, s => (push (.int i) s).bind (parse ts)
  | .double v :: ts, s => (push (.double v) s).bind (parse ts)
  | _ :: _, _ => none

/-- The value of a key. -/
def Json.get (k : Key) : Json V → Option (Json V)
  | .object l => (l.find? fun p => p.1 == k).map Prod.snd
  | _ => none

/-- The elements of an array. -/
def Json.elems : Json V → Option (List (Json V))
  | .array l => some l
  | _ => none

/-- A natural number. -/
def Json.nat : Json V → Option Nat
  | .int i => if 0 ≤ i then some i.toNat else none
  | _ => none

/-- An integer. -/
def Json.toInt : Json V → Option Int
  | .int i => some i
  | _ => none

/-- A floating-point number. -/
def Json.toDouble : Json V → Option V
  | .double v => some v
  | _ => none

/-- The k-d tree that a file describes: points instead of indices, no node bounds. -/
inductive Saved (K : Type) where
  | leaf (points : List (List K))
  | node (point : List K) (axis : Nat) (left right : Saved K)
deriving DecidableEq, Repr

/-- All points, left to right. -/
def Saved.points {K : Type} : Saved K → List (List K)
  | .leaf ps => ps
  | .node p _ l r => l.points ++ p :: r.points

/-- What a file says about a k-d tree. -/
structure SavedKD (K : Type) where
  nSamples : Nat
  nFeatures : Nat
  bucketSize : Nat
  maxDepth : Nat
  box : List (K × K)
  root : Saved K

variable {K : Type}

/-- The reader of an array of points; `val` reads a number. -/
def readPoints (val : Json V → Option K) (j : Json V) : Option (List (List K)) := do
  (← j.elems).mapM fun p => do (← p.elems).mapM val

/-- The reader of a k-d tree node: axis -1 is a leaf.  The fuel bounds the depth. -/
def readKD (val : Json V → Option K) : Nat → Json V → Option (Saved K)
  | 0, _ => none
  | fuel + 1, j => do
    let axis ← (← j.get .axis).toInt
    let ps ← readPoints val (← j.get .points)
    if axis = -1 then some (.leaf ps) else do
      let l ← readKD val fuel (← j.get .left)
      let r ← readKD val fuel (← j.get .right)
      match ps with
      | [p] => some (.node p axis.toNat l r)
      | _ => none

/-- The reader of one segment. -/
def readSegment (val : Json V → Option K) (j : Json V) : Option (K × K) := do
  match ← j.elems with
  | [a, b] => some (← val a, ← val b)
  | _ => none

/-- The reader of a k-d tree file. -/
def readKDFile (val : Json V → Option K) (ts : List (Tok V)) : Option (SavedKD K) := do
  let j ← parse ts []
  let o ← j.get .options
  some {
    nSamples := ← (← j.get .nSamples).nat
    nFeatures := ← (← j.get .nFeatures).nat
    bucketSize := ← (← o.get .bucketSize).nat
    maxDepth := ← (← o.get .maxDepth).nat
    box := ← (← (← j.get .boundingBox).elems).mapM (readSegment val)
    root := ← readKD val ts.length (← j.get .root) }

open Verif.Dendrogram in
/-- The reader of a single linkage node: without a left child it is a leaf, whose level must be 0
and size 1. -/
def readLink {D : Type} [Zero D] [DecidableEq D] (val : Json V → Option D) :
    Nat → Json V → Option (STree D)
  | 0, _ => none
  | fuel + 1, j => do
    let r ← (← j.get .representative).nat
    let level ← val (← j.get .level)
    let size ← (← j.get .clusterSize).nat
    match j.get .left, j.get .right with
    | some l, some rt => some (.node r level size (← readLink val fuel l) (← readLink val fuel rt))
    | none, none => if level = 0 ∧ size = 1 then some (.leaf r) else none
    | _, _ => none

open Verif.Dendrogram in
/-- The reader of a single linkage file. -/
def readLinkFile {D : Type} [Zero D] [DecidableEq D] (val : Json V → Option D)
    (ts : List (Tok V)) : Option (STree D) := do
  let j ← parse ts []
  readLink val ts.length (← j.get .root)

/-- The shape of the data in a file: rows of `nf` values, cut axes below `nf`, and every cut separates
the points of the two sides: `L` relates a value on the left and the cut value, `R` the cut value and
a value on the right. -/
def Saved.Split (nf : Nat) (L R : K → K → Prop) : Saved K → Prop
  | .leaf ps => ∀ p ∈ ps, p.length = nf
  | .node c a l r => c.length = nf ∧ a < nf ∧ l.Split nf L R ∧ r.Split nf L R ∧
      (∀ p ∈ l.points, ∀ v w, p[a]? = some v → c[a]? = some w → L v w) ∧
      (∀ p ∈ r.points, ∀ v w, p[a]? = some v → c[a]? = some w → R w v)

/-- The point is inside the box. -/
def PointIn [LE K] (box : List (K × K)) (p : List K) : Prop :=
  p.length = box.length ∧
    ∀ (f : Nat) (seg : K × K) (v : K), box[f]? = some seg → p[f]? = some v → seg.1 ≤ v ∧ v ≤ seg.2

/-- The tree that a user expects to find in the file: the rows of the samples. -/
def saved (x : Nat → Nat → K) (nf : Nat) : KDTree.Tree K → Saved K
  | .leaf idx _ => .leaf (idx.map fun i => (List.range nf).map (x i))
  | .node p a _ l r => .node ((List.range nf).map (x p)) a (saved x nf l) (saved x nf r)

end Verif.Serialize
