import Verif.Spec.Serialize
import Verif.Spec.KDTree

/-
The token streams of the serialisers are JSON documents, and the readers recover their content.
-/

namespace Verif.Serialize

variable {V K : Type}

/-- The document of a number token. -/
def numDoc : Tok V → Json V
  | .int64 i => .int i
  | .double v => .double v
  | _ => .array []

/-- The token is a number. -/
def IsNum : Tok V → Prop
  | .int64 _ => True
  | .double _ => True
  | _ => False

theorem parse_num (t : Tok V) (h : IsNum t) (ts : List (Tok V)) (s : List (Frame V)) :
    parse (t :: ts) s = (push (numDoc t) s).bind (parse ts) := by
  cases t <;> first | exact h.elim | (cases s <;> rfl)

theorem parse_nums (l : List (Tok V)) (h : ∀ t ∈ l, IsNum t) (ts : List (Tok V)) (acc : List (Json V))
    (s : List (Frame V)) :
    parse (l ++ ts) (.array acc :: s) = parse ts (.array (acc ++ l.map numDoc) :: s) := by
  induction l generalizing acc with
  | nil => simp
  | cons t l ih =>
    rw [List.cons_append, parse_num t (h t (by simp)), push, Option.bind_some,
      ih (fun u hu => h u (by simp [hu]))]
    simp

theorem parse_endArray (l : List (Json V)) (ts : List (Tok V)) (s : List (Frame V)) :
    parse (.endArray :: ts) (.array l :: s) = (push (.array l) s).bind (parse ts) := by
  cases s <;> rfl

theorem parse_endObject (l : List (Key × Json V)) (ts : List (Tok V)) (f : Frame V)
    (s : List (Frame V)) :
    parse (.endObject :: ts) (.object l :: f :: s) =
      (push (.object l) (f :: s)).bind (parse ts) := rfl

theorem parse_string (k : Key) (l : List (Key × Json V)) (ts : List (Tok V))
    (s : List (Frame V)) :
    parse (.string k :: ts) (.object l :: s) = parse ts (.key l k :: s) := rfl

/-- The document of a sample. -/
def sampleDoc (num : K → Tok V) (x : Nat → Nat → K) (nf i : Nat) : Json V :=
  .array ((List.range nf).map fun f => numDoc (num (x i f)))

/-- The document of the points of a node. -/
def pointsDoc (num : K → Tok V) (x : Nat → Nat → K) (nf : Nat) (idx : List Nat) : Json V :=
  .array (idx.map (sampleDoc num x nf))

theorem parse_sample (num : K → Tok V) (hn : ∀ v, IsNum (num v)) (x : Nat → Nat → K) (nf i : Nat)
    (ts : List (Tok V)) (s : List (Frame V)) :
    parse (samplePoint num x nf i ++ ts) s = (push (sampleDoc num x nf i) s).bind (parse ts) := by
  have h1 : samplePoint num x nf i ++ ts =
      .startArray :: (((List.range nf).map fun f => num (x i f)) ++ (.endArray :: ts)) := by
    simp [samplePoint]
  rw [h1]
  show parse _ (.array [] :: s) = _
  rw [parse_nums _ (by simp; intros; exact hn _), parse_endArray]
  simp [sampleDoc, Function.comp_def]

theorem parse_samples (num : K → Tok V) (hn : ∀ v, IsNum (num v)) (x : Nat → Nat → K) (nf : Nat)
    (idx : List Nat) (ts : List (Tok V)) (acc : List (Json V)) (s : List (Frame V)) :
    parse (idx.flatMap (samplePoint num x nf) ++ ts) (.array acc :: s) =
      parse ts (.array (acc ++ idx.map (sampleDoc num x nf)) :: s) := by
  induction idx generalizing acc with
  | nil => simp
  | cons i idx ih =>
    rw [List.flatMap_cons, List.append_assoc, parse_sample num hn, push, Option.bind_some, ih]
    simp

theorem parse_points (num : K → Tok V) (hn : ∀ v, IsNum (num v)) (x : Nat → Nat → K) (nf : Nat)
    (idx : List Nat) (ts : List (Tok V)) (s : List (Frame V)) :
    parse (points num x nf idx ++ ts) s = (push (pointsDoc num x nf idx) s).bind (parse ts) := by
  have h1 : points num x nf idx ++ ts =
      .startArray :: (idx.flatMap (samplePoint num x nf) ++ (.endArray :: ts)) := by
    simp [points]
  rw [h1]
  show parse _ (.array [] :: s) = _
  rw [parse_samples num hn, parse_endArray]
  simp [pointsDoc]

/-- The document of a k-d tree node. -/
def kdDoc (num : K → Tok V) (x : Nat → Nat → K) (nf : Nat) : KDTree.Tree K → Json V
  | .leaf idx _ => .object [(.axis, .int (-1)), (.points, pointsDoc num x nf idx)]
  | .node p a _ l r => .object [(.axis, .int (toInt64 a)), (.points, pointsDoc num x nf [p]),
      (.left, kdDoc num x nf l), (.right, kdDoc num x nf r)]

theorem parse_int (i : Int) (ts : List (Tok V)) (s : List (Frame V)) :
    parse (.int64 i :: ts) s = (push (.int i) s).bind (parse ts) := by
  cases s <;> rfl

theorem parse_startObject (ts : List (Tok V)) (s : List (Frame V)) :
    parse (.startObject :: ts) s = parse ts (.object [] :: s) := by
  cases s <;> rfl

theorem parse_startArray (ts : List (Tok V)) (s : List (Frame V)) :
    parse (.startArray :: ts) s = parse ts (.array [] :: s) := by
  cases s <;> rfl

theorem parse_kdNode (num : K → Tok V) (hn : ∀ v, IsNum (num v)) (x : Nat → Nat → K) (nf : Nat)
    (t : KDTree.Tree K) (ts : List (Tok V)) (f : Frame V) (s : List (Frame V)) :
    parse (kdNode num x nf t ++ ts) (f :: s) =
      (push (kdDoc num x nf t) (f :: s)).bind (parse ts) := by
  induction t generalizing ts f s with
  | leaf idx box =>
    simp only [kdNode, List.append_assoc, List.cons_append, List.nil_append]
    rw [parse_startObject, parse_string, parse_int, push, Option.bind_some, parse_string,
      parse_points num hn, push, Option.bind_some, parse_endObject]
    simp [kdDoc]
  | node p a box l r ihl ihr =>
    simp only [kdNode, List.append_assoc, List.cons_append, List.nil_append]
    rw [parse_startObject, parse_string, parse_int, push, Option.bind_some, parse_string,
      parse_points num hn, push, Option.bind_some, parse_string, ihl, push, Option.bind_some,
      parse_string, ihr, push, Option.bind_some, parse_endObject]
    simp [kdDoc]

theorem mapM_map_some {α β γ : Type} (l : List α) (f : β → Option γ) (g : α → β) (h : α → γ)
    (H : ∀ a ∈ l, f (g a) = some (h a)) : (l.map g).mapM f = some (l.map h) := by
  induction l with
  | nil => rfl
  | cons a l ih =>
    rw [List.map_cons, List.mapM_cons, H a (by simp), ih (fun b hb => H b (by simp [hb]))]
    rfl

theorem readPoints_doc (num : K → Tok V) (val : Json V → Option K) (x : Nat → Nat → K) (nf : Nat)
    (idx : List Nat)
    (hv : ∀ i ∈ idx, ∀ f, f < nf → val (numDoc (num (x i f))) = some (x i f)) :
    readPoints val (pointsDoc num x nf idx) =
      some (idx.map fun i => (List.range nf).map (x i)) := by
  show (idx.map (sampleDoc num x nf)).mapM _ = _
  refine mapM_map_some idx _ _ _ (fun i hi => ?_)
  show ((List.range nf).map fun f => numDoc (num (x i f))).mapM val = _
  exact mapM_map_some _ _ _ _ (fun f hf => hv i hi f (List.mem_range.1 hf))

theorem toInt64_of_lt {i : Int} (h0 : -2 ^ 63 ≤ i) (h : i < 2 ^ 63) : toInt64 i = i := by
  unfold toInt64
  rw [Int.bmod_eq_of_le] <;> omega

theorem toInt64_nat {n : Nat} (h : n < 2 ^ 63) : toInt64 n = n :=
  toInt64_of_lt (by omega) (by omega)

/-- Height of a k-d tree, in nodes. -/
def height : KDTree.Tree K → Nat
  | .leaf _ _ => 1
  | .node _ _ _ l r => max (height l) (height r) + 1

theorem height_le (num : K → Tok V) (x : Nat → Nat → K) (nf : Nat) (t : KDTree.Tree K) :
    height t ≤ (kdNode num x nf t).length := by
  induction t with
  | leaf idx box => simp [height, kdNode]
  | node p a box l r ihl ihr =>
    simp only [height, kdNode, List.length_append, List.length_cons]
    omega

theorem readKD_doc (num : K → Tok V) (val : Json V → Option K) (x : Nat → Nat → K) (nf : Nat)
    (t : KDTree.Tree K) (ha : t.AxesLt nf) (hnf : nf < 2 ^ 63)
    (hv : ∀ i ∈ t.indices, ∀ f, f < nf → val (numDoc (num (x i f))) = some (x i f))
    (fuel : Nat) (hf : height t ≤ fuel) :
    readKD val fuel (kdDoc num x nf t) = some (saved x nf t) := by
  induction t generalizing fuel with
  | leaf idx box =>
    obtain ⟨fuel, rfl⟩ : ∃ k, fuel = k + 1 := ⟨fuel - 1, by simp [height] at hf; omega⟩
    simp [readKD, kdDoc, Json.get, Json.toInt, saved,
      readPoints_doc num val x nf idx (fun i hi => hv i hi)]
  | node p a box l r ihl ihr =>
    obtain ⟨fuel, rfl⟩ : ∃ k, fuel = k + 1 := ⟨fuel - 1, by simp [height] at hf; omega⟩
    obtain ⟨ha0, hal, har⟩ := ha
    simp only [height] at hf
    have e1 := ihl hal (fun i hi => hv i (by simp [KDTree.Tree.indices, hi])) fuel (by omega)
    have e2 := ihr har (fun i hi => hv i (by simp [KDTree.Tree.indices, hi])) fuel (by omega)
    have e3 := readPoints_doc num val x nf [p] (fun i hi => hv i (by
      rw [List.mem_singleton.1 hi]; simp [KDTree.Tree.indices]))
    have e4 : toInt64 (a : Int) = a := toInt64_nat (by omega)
    have e5 : ¬ ((a : Int) = -1) := by omega
    simp [readKD, kdDoc, Json.get, Json.toInt, saved, e1, e2, e3, e4, e5]

theorem saved_points (x : Nat → Nat → K) (nf : Nat) (t : KDTree.Tree K) :
    (saved x nf t).points = t.indices.map fun i => (List.range nf).map (x i) := by
  induction t with
  | leaf idx box => rfl
  | node p a box l r ihl ihr => simp [saved, Saved.points, KDTree.Tree.indices, ihl, ihr]

theorem parse_segments (num : K → Tok V) (hn : ∀ v, IsNum (num v)) (box : List (K × K))
    (ts : List (Tok V)) (acc : List (Json V)) (s : List (Frame V)) :
    parse (box.flatMap (segment num) ++ ts) (.array acc :: s) =
      parse ts (.array (acc ++ box.map fun b =>
        .array [numDoc (num b.1), numDoc (num b.2)]) :: s) := by
  induction box generalizing acc with
  | nil => simp
  | cons b box ih =>
    simp only [List.flatMap_cons, segment, List.cons_append, List.nil_append]
    rw [parse_startArray, parse_num _ (hn _), push, Option.bind_some, parse_num _ (hn _), push,
      Option.bind_some, parse_endArray, push, Option.bind_some]
    rw [ih]
    simp

theorem mapM_range'_getElem {α : Type} (pre l : List α) :
    (List.range' pre.length l.length).mapM (fun f => (pre ++ l)[f]?) = some l := by
  induction l generalizing pre with
  | nil => rfl
  | cons a l ih =>
    have h := ih (pre ++ [a])
    rw [List.length_append, List.append_assoc] at h
    rw [List.length_cons, List.range'_succ, List.mapM_cons]
    have e : (pre ++ a :: l)[pre.length]? = some a := by simp
    rw [e]
    change (do let b ← (List.range' (pre.length + 1) l.length).mapM _; some (a :: b)) = _
    rw [show pre ++ a :: l = pre ++ ([a] ++ l) from rfl]
    rw [show pre.length + 1 = pre.length + [a].length from rfl, h]
    rfl

theorem mapM_range_getElem {α : Type} (l : List α) (n : Nat) (h : l.length = n) :
    (List.range n).mapM (fun f => l[f]?) = some l := by
  subst h
  have := mapM_range'_getElem [] l
  rw [List.range_eq_range']
  exact this

/-- The document of a k-d tree file. -/
def fileDoc (num : K → Tok V) (x : Nat → Nat → K) (t : KD K) (n : Nat) : Json V :=
  .object [(.nSamples, .int (toInt64 n)), (.nFeatures, .int (toInt64 t.nFeatures)),
    (.options, .object [(.bucketSize, .int (toInt64 t.bucketSize)),
      (.maxDepth, .int (toInt64 t.maxDepth))]),
    (.boundingBox, .array (t.bound.map fun b => .array [numDoc (num b.1), numDoc (num b.2)])),
    (.root, kdDoc num x t.nFeatures t.root)]

theorem kdFile_parse (num : K → Tok V) (hn : ∀ v, IsNum (num v)) (x : Nat → Nat → K) (t : KD K)
    (n : Nat) (h : t.nSamples = some n) (hb : t.bound.length = t.nFeatures) :
    ∃ ts, kdFile num x t = some ts ∧ parse ts [] = some (fileDoc num x t n) ∧
      height t.root ≤ ts.length := by
  simp only [kdFile, h, Option.bind_eq_bind, Option.bind_some,
    mapM_range_getElem t.bound t.nFeatures hb]
  refine ⟨_, rfl, ?_, ?_⟩
  · simp only [List.append_assoc, List.cons_append, List.nil_append]
    rw [parse_startObject, parse_string, parse_int, push, Option.bind_some, parse_string, parse_int,
      push, Option.bind_some, parse_string, parse_startObject, parse_string, parse_int, push,
      Option.bind_some, parse_string, parse_int, push, Option.bind_some, parse_endObject, push,
      Option.bind_some, parse_string, parse_startArray, parse_segments num hn, parse_endArray, push,
      Option.bind_some, parse_string, parse_kdNode num hn, push, Option.bind_some]
    simp [parse, fileDoc]
  · have := height_le num x t.nFeatures t.root
    simp only [List.length_append, List.length_cons]
    omega

theorem readSegments (num : K → Tok V) (val : Json V → Option K) (box : List (K × K))
    (hv : ∀ b ∈ box, val (numDoc (num b.1)) = some b.1 ∧ val (numDoc (num b.2)) = some b.2) :
    (box.map fun b => Json.array [numDoc (num b.1), numDoc (num b.2)]).mapM (readSegment val) =
      some box := by
  have := mapM_map_some box (readSegment val)
    (fun b => Json.array [numDoc (num b.1), numDoc (num b.2)]) id (fun b hb => by
      obtain ⟨h1, h2⟩ := hv b hb
      simp [readSegment, Json.elems, h1, h2])
  simpa using this

theorem toInt64_natDoc {n : Nat} (h : n < 2 ^ 63) : (Json.int (toInt64 n) : Json V).nat = some n := by
  rw [toInt64_nat h]
  simp [Json.nat]

theorem get_cons (k a : Key) (j : Json V) (l : List (Key × Json V)) :
    (Json.object ((a, j) :: l)).get k = if a = k then some j else (Json.object l).get k := by
  simp only [Json.get, List.find?_cons]
  by_cases h : a = k
  · simp [h]
  · have : (a == k) = false := by simpa using h
    simp [h, this]

theorem readKDFile_step (val : Json V → Option K) (ts : List (Tok V)) (z1 z2 z3 z4 : Int)
    (jb : List (Json V)) (jr : Json V) {n1 n2 n3 n4 : Nat} {box : List (K × K)} {root : Saved K}
    (ep : parse ts [] = some (.object [(.nSamples, .int z1), (.nFeatures, .int z2),
      (.options, .object [(.bucketSize, .int z3), (.maxDepth, .int z4)]),
      (.boundingBox, .array jb), (.root, jr)]))
    (g1 : (Json.int z1 : Json V).nat = some n1) (g2 : (Json.int z2 : Json V).nat = some n2)
    (g3 : (Json.int z3 : Json V).nat = some n3) (g4 : (Json.int z4 : Json V).nat = some n4)
    (e2 : jb.mapM (readSegment val) = some box) (e1 : readKD val ts.length jr = some root) :
    readKDFile val ts = some ⟨n1, n2, n3, n4, box, root⟩ := by
  simp only [readKDFile, ep, get_cons, reduceCtorEq, if_true, if_false, g1, g2, g3, g4, Json.elems,
    e1, e2, Option.bind_eq_bind, Option.bind_some]

/-- Round trip of a k-d tree file. -/
theorem kdFile_read (num : K → Tok V) (hn : ∀ v, IsNum (num v)) (val : Json V → Option K)
    (x : Nat → Nat → K) (t : KD K) (n : Nat) (h : t.nSamples = some n)
    (hb : t.bound.length = t.nFeatures) (hax : t.root.AxesLt t.nFeatures)
    (hv : ∀ i ∈ t.root.indices, ∀ f, f < t.nFeatures → val (numDoc (num (x i f))) = some (x i f))
    (hbox : ∀ b ∈ t.bound, val (numDoc (num b.1)) = some b.1 ∧ val (numDoc (num b.2)) = some b.2)
    (h1 : n < 2 ^ 63) (h2 : t.nFeatures < 2 ^ 63) (h3 : t.bucketSize < 2 ^ 63)
    (h4 : t.maxDepth < 2 ^ 63) :
    ∃ ts, kdFile num x t = some ts ∧
      readKDFile val ts = some ⟨n, t.nFeatures, t.bucketSize, t.maxDepth, t.bound,
        saved x t.nFeatures t.root⟩ := by
  obtain ⟨ts, e, ep, hh⟩ := kdFile_parse num hn x t n h hb
  refine ⟨ts, e, ?_⟩
  have e1 := readKD_doc num val x t.nFeatures t.root hax h2 hv ts.length hh
  have e2 := readSegments num val t.bound hbox
  exact readKDFile_step val ts _ _ _ _ _ _ ep (toInt64_natDoc h1) (toInt64_natDoc h2)
    (toInt64_natDoc h3) (toInt64_natDoc h4) e2 e1

/-! ### single linkage -/

section Link

open Verif.Dendrogram

variable {D : Type} [Zero D]

/-- The document of a single linkage node. -/
def linkDoc (num : D → Tok V) : STree D → Json V
  | .leaf r => .object [(.representative, .int (toInt64 r)), (.level, numDoc (num 0)),
      (.clusterSize, .int (toInt64 1))]
  | .node r level size left right => .object [(.representative, .int (toInt64 r)),
      (.level, numDoc (num level)), (.clusterSize, .int (toInt64 size)),
      (.left, linkDoc num left), (.right, linkDoc num right)]

theorem parse_linkNode (num : D → Tok V) (hn : ∀ v, IsNum (num v)) (t : STree D)
    (ts : List (Tok V)) (f : Frame V) (s : List (Frame V)) :
    parse (linkNode num t ++ ts) (f :: s) = (push (linkDoc num t) (f :: s)).bind (parse ts) := by
  induction t generalizing ts f s with
  | leaf r =>
    simp only [linkNode, linkMembers, List.append_assoc, List.cons_append, List.nil_append]
    rw [parse_startObject, parse_string, parse_int, push, Option.bind_some, parse_string,
      parse_num _ (hn _), push, Option.bind_some, parse_string, parse_int, push, Option.bind_some,
      parse_endObject]
    simp [linkDoc]
  | node r level size l r' ihl ihr =>
    simp only [linkNode, linkMembers, List.append_assoc, List.cons_append, List.nil_append]
    rw [parse_startObject, parse_string, parse_int, push, Option.bind_some, parse_string,
      parse_num _ (hn _), push, Option.bind_some, parse_string, parse_int, push, Option.bind_some,
      parse_string, ihl, push, Option.bind_some, parse_string, ihr, push, Option.bind_some,
      parse_endObject]
    simp [linkDoc]

/-- Height of a single linkage tree, in nodes. -/
def linkHeight : STree D → Nat
  | .leaf _ => 1
  | .node _ _ _ l r => max (linkHeight l) (linkHeight r) + 1

theorem linkHeight_le (num : D → Tok V) (t : STree D) : linkHeight t ≤ (linkNode num t).length := by
  induction t with
  | leaf r => simp [linkHeight, linkNode]
  | node r level size l r' ihl ihr =>
    simp only [linkHeight, linkNode, List.length_append, List.length_cons]
    omega

/-- All numbers of the tree can be written and read back. -/
def Writable (num : D → Tok V) (val : Json V → Option D) : STree D → Prop
  | .leaf r => r < 2 ^ 63
  | .node r level size l r' => r < 2 ^ 63 ∧ val (numDoc (num level)) = some level ∧
      size < 2 ^ 63 ∧ Writable num val l ∧ Writable num val r'

theorem readLink_leaf [DecidableEq D] (val : Json V → Option D) (z1 z2 : Int) (jl : Json V)
    {r fuel : Nat} (g1 : (Json.int z1 : Json V).nat = some r)
    (g2 : (Json.int z2 : Json V).nat = some 1) (g3 : val jl = some 0) :
    readLink val (fuel + 1) (.object [(.representative, .int z1), (.level, jl),
      (.clusterSize, .int z2)]) = some (.leaf r) := by
  simp [readLink, Json.get, g1, g2, g3]

theorem readLink_node [DecidableEq D] (val : Json V → Option D) (z1 z2 : Int) (jl j1 j2 : Json V)
    {r size fuel : Nat} {level : D} {t1 t2 : STree D} (g1 : (Json.int z1 : Json V).nat = some r)
    (g2 : (Json.int z2 : Json V).nat = some size) (g3 : val jl = some level)
    (e1 : readLink val fuel j1 = some t1) (e2 : readLink val fuel j2 = some t2) :
    readLink val (fuel + 1) (.object [(.representative, .int z1), (.level, jl),
      (.clusterSize, .int z2), (.left, j1), (.right, j2)]) = some (.node r level size t1 t2) := by
  simp [readLink, Json.get, g1, g2, g3, e1, e2]

theorem readLink_doc [DecidableEq D] (num : D → Tok V) (val : Json V → Option D)
    (h0 : val (numDoc (num 0)) = some 0) (t : STree D) (hw : Writable num val t) (fuel : Nat)
    (hf : linkHeight t ≤ fuel) : readLink val fuel (linkDoc num t) = some t := by
  induction t generalizing fuel with
  | leaf r =>
    obtain ⟨fuel, rfl⟩ : ∃ k, fuel = k + 1 := ⟨fuel - 1, by simp [linkHeight] at hf; omega⟩
    have e1 : (Json.int (toInt64 1) : Json V).nat = some 1 := by
      have h := toInt64_natDoc (V := V) (n := 1) (by norm_num)
      rwa [Nat.cast_one] at h
    exact readLink_leaf val _ _ _ (toInt64_natDoc hw) e1 h0
  | node r level size l r' ihl ihr =>
    obtain ⟨fuel, rfl⟩ : ∃ k, fuel = k + 1 := ⟨fuel - 1, by simp [linkHeight] at hf; omega⟩
    obtain ⟨w1, w2, w3, w4, w5⟩ := hw
    simp only [linkHeight] at hf
    have e1 := ihl w4 fuel (by omega)
    have e2 := ihr w5 fuel (by omega)
    exact readLink_node val _ _ _ _ _ (toInt64_natDoc w1) (toInt64_natDoc w3) w2 e1 e2

/-- Round trip of a single linkage file. -/
theorem linkFile_read [DecidableEq D] (num : D → Tok V) (hn : ∀ v, IsNum (num v))
    (val : Json V → Option D) (h0 : val (numDoc (num 0)) = some 0) (t : STree D)
    (hw : Writable num val t) : readLinkFile val (linkFile num t) = some t := by
  have ep : parse (linkFile num t) [] = some (.object [(.root, linkDoc num t)]) := by
    simp only [linkFile, List.append_assoc, List.cons_append, List.nil_append]
    rw [parse_startObject, parse_string, parse_linkNode num hn, push, Option.bind_some]
    simp [parse]
  have hh : linkHeight t ≤ (linkFile num t).length := by
    have := linkHeight_le num t
    simp only [linkFile, List.length_append, List.length_cons]
    omega
  simp [readLinkFile, ep, Json.get, readLink_doc num val h0 t hw _ hh]

end Link

end Verif.Serialize
