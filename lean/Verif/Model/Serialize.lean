import Verif.Model.KDTree
import Verif.Model.Dendrogram

/-
Model of the serialisation of the k-d tree (datastruct/tree/kdtree/KDTree.hpp:107-119, 383-465 and
KDNodeView.hpp:274-301) and of the single linkage tree
(datastruct/tree/single_linkage_cluster_tree/SingleLinkageClusterNode.hpp:68-86 and
SingleLinkageClusterTree.hpp:239-285).

A call of the rapidjson writer is one token; a serialisation is the list of its calls.  The text
that rapidjson produces for the calls, the parsing of that text into a document and the writing of
the document to the file (KDTree.hpp:453-464) are trusted; the tokens are the content of the file.
rapidjson refuses `Double` of a NaN or an infinity, which are not values of `K`.
-/

namespace Verif.Serialize

/-- The string literals passed to `writer.String` (KDTree.hpp:108-115, 389-402, 422-448,
SingleLinkageClusterNode.hpp:73-84, SingleLinkageClusterTree.hpp:249-269): one constructor for each
distinct literal. -/
inductive Key where
  | axis | points | left | right
  | nSamples | nFeatures | options | bucketSize | maxDepth | boundingBox | root
  | representative | level | clusterSize
deriving DecidableEq, Repr

/-- A call of `rapidjson::Writer`. `V` is the type of the floating-point numbers. -/
inductive Tok (V : Type) where
  | startObject
  | endObject
  | startArray
  | endArray
  | string (s : Key)
  | int64 (i : Int)
  | double (v : V)
deriving DecidableEq, Repr

/-- The conversion of an argument of `writer.Int64` to `int64_t`: the value modulo 2^64 in
[-2^63, 2^63).  (Implementation defined before C++20, modulo on every supported compiler.) -/
def toInt64 (i : Int) : Int := i.bmod (2 ^ 64)

/-- `writer.Int64(v)` for an integral type (KDNodeView.hpp:292, KDTree.hpp:438-439,
SingleLinkageClusterNode.hpp:78): the data value is converted to `int64_t`. -/
def intNum (v : Int) : Tok Empty := .int64 (toInt64 v)

/-- `writer.Double(v)` for a floating type (KDNodeView.hpp:295, KDTree.hpp:442-443,
SingleLinkageClusterNode.hpp:81); `float` to `double` is exact. -/
def doubleNum {V : Type} (v : V) : Tok V := .double v

section KD

variable {K V : Type}

/-- One sample of `KDNodeView::serialize` (KDNodeView.hpp:288-298). -/
def samplePoint (num : K → Tok V) (x : Nat → Nat → K) (nf : Nat) (i : Nat) : List (Tok V) :=
  .startArray :: ((List.range nf).map fun f => num (x i f)) ++ [.endArray]

/-- `KDNodeView::serialize` (KDNodeView.hpp:274-301) for the index range of the node. -/
def points (num : K → Tok V) (x : Nat → Nat → K) (nf : Nat) (idx : List Nat) : List (Tok V) :=
  .startArray :: idx.flatMap (samplePoint num x nf) ++ [.endArray]

/-- `KDTree::serialize(kdnode, writer)` (KDTree.hpp:384-408).  The cut axis of a leaf is -1
(KDNodeView.hpp:125-128). -/
def kdNode (num : K → Tok V) (x : Nat → Nat → K) (nf : Nat) : KDTree.Tree K → List (Tok V)
  | .leaf idx _ =>
    [.startObject, .string .axis, .int64 (-1), .string .points] ++ points num x nf idx ++
      [.endObject]
  | .node p a _ l r =>
    [.startObject, .string .axis, .int64 (toInt64 a), .string .points] ++ points num x nf [p] ++
      [.string .left] ++ kdNode num x nf l ++ [.string .right] ++ kdNode num x nf r ++ [.endObject]

/-- The members of a `KDTree` that are serialised (KDTree.hpp:176-192); `none` for `n_samples_` is
an uninitialised member. -/
structure KD (K : Type) where
  bucketSize : Nat
  maxDepth : Nat
  nSamples : Option Nat
  nFeatures : Nat
  bound : KDTree.Box K
  root : KDTree.Tree K

/-- The constructor (KDTree.hpp:201-227) for the index range `idx`, as far as the serialised members
go. -/
def construct [LinearOrder K] (eqv : K → K → Bool) (x : Nat → Nat → K)
    (policy : List Nat → Nat → KDTree.Box K → Nat) (bucketSize maxDepth nFeatures : Nat)
    (vmax vlowest : K) (idx : List Nat) : Option (KD K) := do
  let (_, t) ← KDTree.make eqv x policy bucketSize maxDepth nFeatures vmax vlowest idx
  some ⟨bucketSize, maxDepth, some idx.length, nFeatures,
    KDTree.tightBound x nFeatures vmax vlowest idx, t⟩

/-- The copy constructor (KDTree.hpp:229-237), member by member; the root is a shared pointer, so the nodes
are those of the original. -/
def KD.copy (t : KD K) : KD K :=
  { bucketSize := t.bucketSize, maxDepth := t.maxDepth, nSamples := t.nSamples, nFeatures := t.nFeatures,
    bound := t.bound, root := t.root }

/-- The move constructor (KDTree.hpp:239-246): `n_samples_` is not in the initialiser list. -/
def KD.moved (t : KD K) : KD K := { t with nSamples := none }

/-- One segment of the bounding box (KDTree.hpp:433-446). -/
def segment (num : K → Tok V) (s : K × K) : List (Tok V) :=
  [.startArray, num s.1, num s.2, .endArray]

/-- The body of `KDTree::serialize(filepath)` (KDTree.hpp:411-451); the read of an uninitialised
`n_samples_` or of a missing segment is `none`. -/
def kdFile (num : K → Tok V) (x : Nat → Nat → K) (t : KD K) : Option (List (Tok V)) := do
  let n ← t.nSamples
  let box ← (List.range t.nFeatures).mapM fun f => t.bound[f]?
  some ([.startObject, .string .nSamples, .int64 (toInt64 n),
      .string .nFeatures, .int64 (toInt64 t.nFeatures),
      .string .options, .startObject,
        .string .bucketSize, .int64 (toInt64 t.bucketSize),
        .string .maxDepth, .int64 (toInt64 t.maxDepth), .endObject,
      .string .boundingBox, .startArray] ++ box.flatMap (segment num) ++ [.endArray,
      .string .root] ++ kdNode num x t.nFeatures t.root ++ [.endObject])

end KD

section Link

open Verif.Dendrogram

variable {D V : Type}

/-- `SingleLinkageClusterNode::serialize` (SingleLinkageClusterNode.hpp:68-86). -/
def linkMembers (num : D → Tok V) (representative : Nat) (level : D) (size : Nat) : List (Tok V) :=
  [.string .representative, .int64 (toInt64 representative), .string .level, num level,
    .string .clusterSize, .int64 (toInt64 size)]

/-- `SingleLinkageClusterTree::serialize(node, writer)` (SingleLinkageClusterTree.hpp:239-257). -/
def linkNode [Zero D] (num : D → Tok V) : STree D → List (Tok V)
  | .leaf r => .startObject :: linkMembers num r 0 1 ++ [.endObject]
  | .node r level size left right =>
    .startObject :: linkMembers num r level size ++ [.string .left] ++ linkNode num left ++
      [.string .right] ++ linkNode num right ++ [.endObject]

/-- `SingleLinkageClusterTree::serialize(filepath)` (SingleLinkageClusterTree.hpp:259-285). -/
def linkFile [Zero D] (num : D → Tok V) (root : STree D) : List (Tok V) :=
  [.startObject, .string .root] ++ linkNode num root ++ [.endObject]

end Link

end Verif.Serialize
