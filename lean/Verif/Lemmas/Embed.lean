import Verif.Lemmas.Search

/-
The sorting routines, the k-d tree construction and the searches look at the values only through `<`
and the library's equality: replacing the values by other values that compare alike changes nothing
but the values stored in the bounds.
-/

namespace Verif.Sorting

variable {K K' : Type} [LT K] [DecidableLT K] [LT K'] [DecidableLT K'] {emb : K → K'}

/-- `emb` preserves and reflects `<` and carries the equality `eqv` to `eqv'`. -/
structure Alike (emb : K → K') (eqv : K → K → Bool) (eqv' : K' → K' → Bool) : Prop where
  lt : ∀ a b, emb a < emb b ↔ a < b
  eq : ∀ a b, eqv' (emb a) (emb b) = eqv a b

theorem median_alike (hlt : ∀ a b, emb a < emb b ↔ a < b) (key : Nat → K) (idx : List Nat) :
    medianIndexOfThree (fun i => emb (key i)) idx = medianIndexOfThree key idx := by
  simp only [medianIndexOfThree, hlt]

theorem scanUp_alike (hlt : ∀ a b, emb a < emb b ↔ a < b) (key : Nat → K) (pivot : K) (idx : List Nat) :
    ∀ fuel l, scanUp (fun i => emb (key i)) (emb pivot) idx fuel l = scanUp key pivot idx fuel l := by
  intro fuel
  induction fuel with
  | zero => intro l; rfl
  | succ fuel ih => intro l; simp only [scanUp, hlt, ih]

theorem scanDown_alike (hlt : ∀ a b, emb a < emb b ↔ a < b) (key : Nat → K) (pivot : K) (idx : List Nat) :
    ∀ r, scanDown (fun i => emb (key i)) (emb pivot) idx r = scanDown key pivot idx r := by
  intro r
  induction r with
  | zero => rfl
  | succ r ih => simp only [scanDown, hlt, ih]

variable {eqv : K → K → Bool} {eqv' : K' → K' → Bool}

theorem partitionLoop_alike (h : Alike emb eqv eqv') (key : Nat → K) (pivot : K) :
    ∀ fuel idx lp rp pv, partitionLoop eqv' (fun i => emb (key i)) (emb pivot) fuel idx lp rp pv =
      partitionLoop eqv key pivot fuel idx lp rp pv := by
  intro fuel
  induction fuel with
  | zero => intros; rfl
  | succ fuel ih =>
    intro idx lp rp pv
    simp only [partitionLoop, scanUp_alike h.lt, scanDown_alike h.lt, h.eq, ih]

theorem partition_alike (h : Alike emb eqv eqv') (key : Nat → K) (idx : List Nat) (pv : Nat) :
    partition eqv' (fun i => emb (key i)) idx pv = partition eqv key idx pv := by
  simp only [partition, partitionLoop_alike h]

theorem quickselectLoop_alike (h : Alike emb eqv eqv') (key : Nat → K) (kth : Nat) :
    ∀ fuel idx left right, quickselectLoop eqv' (fun i => emb (key i)) kth fuel idx left right =
      quickselectLoop eqv key kth fuel idx left right := by
  intro fuel
  induction fuel with
  | zero => intros; rfl
  | succ fuel ih =>
    intro idx left right
    simp only [quickselectLoop, median_alike h.lt, partition_alike h, ih]

theorem quickselect_alike (h : Alike emb eqv eqv') (key : Nat → K) (idx : List Nat) (kth : Nat) :
    quickselect eqv' (fun i => emb (key i)) idx kth = quickselect eqv key idx kth := by
  simp only [quickselect, quickselectLoop_alike h]

theorem quicksort_alike (h : Alike emb eqv eqv') (key : Nat → K) :
    ∀ fuel idx pv, quicksort eqv' (fun i => emb (key i)) fuel idx pv = quicksort eqv key fuel idx pv := by
  intro fuel
  induction fuel with
  | zero => intros; rfl
  | succ fuel ih =>
    intro idx pv
    simp only [quicksort, median_alike h.lt, partition_alike h, ih]

end Verif.Sorting

namespace Verif.KDTree

open Verif.Sorting

variable {K K' : Type} [LT K] [DecidableLT K] [LT K'] [DecidableLT K'] {emb : K → K'}
  {eqv : K → K → Bool} {eqv' : K' → K' → Bool}

/-- The bound with its values replaced. -/
def mapBox (emb : K → K') (box : Box K) : Box K' := box.map fun s => (emb s.1, emb s.2)

/-- The tree with the values of the bounds replaced. -/
def mapTree (emb : K → K') : Tree K → Tree K'
  | .leaf idx box => .leaf idx (mapBox emb box)
  | .node p a box l r => .node p a (mapBox emb box) (mapTree emb l) (mapTree emb r)

theorem mapTree_indices (t : Tree K) : (mapTree emb t).indices = t.indices := by
  induction t with
  | leaf idx box => rfl
  | node p a box l r ihl ihr => simp only [mapTree, Tree.indices, ihl, ihr]

theorem shiftLeft_alike (h : Alike emb eqv eqv') (key : Nat → K) (cut : K) (idx : List Nat) :
    ∀ j, shiftLeft eqv' (fun i => emb (key i)) (emb cut) idx j = shiftLeft eqv key cut idx j := by
  intro j
  induction j with
  | zero => rfl
  | succ j ih => simp only [shiftLeft, h.eq, ih]

theorem quickselectMedian_alike (h : Alike emb eqv eqv') (key : Nat → K) (idx : List Nat) :
    quickselectMedian eqv' (fun i => emb (key i)) idx = quickselectMedian eqv key idx := by
  simp only [quickselectMedian, quickselect_alike h, shiftLeft_alike h]

theorem updUpper_alike (box : Box K) (axis : Nat) (v : K) :
    updUpper (mapBox emb box) axis (emb v) = (updUpper box axis v).map (mapBox emb) := by
  simp only [updUpper, mapBox, List.getElem?_map]
  cases box[axis]? <;> simp [mapBox]

theorem updLower_alike (box : Box K) (axis : Nat) (v : K) :
    updLower (mapBox emb box) axis (emb v) = (updLower box axis v).map (mapBox emb) := by
  simp only [updLower, mapBox, List.getElem?_map]
  cases box[axis]? <;> simp [mapBox]

theorem tightStep_alike (hlt : ∀ a b, emb a < emb b ↔ a < b) (x : Nat → Nat → K) (box : Box K) (i : Nat) :
    tightStep (fun i a => emb (x i a)) (mapBox emb box) i = mapBox emb (tightStep x box i) := by
  apply List.ext_getElem?
  intro j
  simp only [tightStep, mapBox, List.getElem?_mapIdx, List.getElem?_map]
  cases box[j]? with
  | none => rfl
  | some s =>
    simp only [Option.map_some, gt_iff_lt, hlt, Option.some.injEq]
    by_cases h1 : x i j < s.1
    · simp only [h1, if_true, hlt]
      split <;> rfl
    · simp only [h1, if_false, hlt]
      split <;> rfl

theorem tightBound_alike (hlt : ∀ a b, emb a < emb b ↔ a < b) (x : Nat → Nat → K) (nf : Nat)
    (vmax vlowest : K) (idx : List Nat) :
    tightBound (fun i a => emb (x i a)) nf (emb vmax) (emb vlowest) idx =
      mapBox emb (tightBound x nf vmax vlowest idx) := by
  have h0 : List.replicate nf (emb vmax, emb vlowest) = mapBox emb (List.replicate nf (vmax, vlowest)) := by
    simp [mapBox]
  unfold tightBound
  rw [h0]
  generalize List.replicate nf (vmax, vlowest) = box
  induction idx generalizing box with
  | nil => rfl
  | cons i idx ih => rw [List.foldl_cons, List.foldl_cons, tightStep_alike hlt, ih]

theorem build_alike (h : Alike emb eqv eqv') (x : Nat → Nat → K) (policy : List Nat → Nat → Box K' → Nat)
    (bucketSize maxDepth : Nat) : ∀ fuel idx depth (box : Box K),
    build eqv' (fun i a => emb (x i a)) policy bucketSize maxDepth fuel idx depth (mapBox emb box) =
      (build eqv x (fun idx d b => policy idx d (mapBox emb b)) bucketSize maxDepth fuel idx depth box).map
        (fun r => (r.1, mapTree emb r.2.1, mapBox emb r.2.2)) := by
  intro fuel
  induction fuel with
  | zero => intros; rfl
  | succ fuel ih =>
    intro idx depth box
    simp only [build]
    split
    · rw [quickselectMedian_alike h (fun i => x i (policy idx depth (mapBox emb box)))]
      generalize policy idx depth (mapBox emb box) = axis
      cases quickselectMedian eqv (fun i => x i axis) idx with
      | none => rfl
      | some r =>
        obtain ⟨l, p, r⟩ := r
        simp only [Option.bind_eq_bind, Option.bind_some, updUpper_alike]
        cases updUpper box axis (x p axis) with
        | none => rfl
        | some b1 =>
          simp only [Option.map_some, Option.bind_some, ih]
          cases build eqv x (fun idx d b => policy idx d (mapBox emb b)) bucketSize maxDepth fuel l (depth + 1) b1 with
          | none => rfl
          | some r1 =>
            obtain ⟨l', tl, b2⟩ := r1
            simp only [Option.map_some, Option.bind_some]
            have hget : (mapBox emb box)[axis]? = (box[axis]?).map (fun s => (emb s.1, emb s.2)) := by
              simp [mapBox]
            rw [hget]
            cases box[axis]? with
            | none => rfl
            | some seg =>
              simp only [Option.map_some, Option.bind_some, updUpper_alike]
              cases updUpper b2 axis seg.2 with
              | none => rfl
              | some b3 =>
                simp only [Option.map_some, Option.bind_some, updLower_alike]
                cases updLower b3 axis (x p axis) with
                | none => rfl
                | some b4 =>
                  simp only [Option.map_some, Option.bind_some, ih]
                  cases build eqv x (fun idx d b => policy idx d (mapBox emb b)) bucketSize maxDepth fuel r
                      (depth + 1) b4 with
                  | none => rfl
                  | some r2 =>
                    obtain ⟨r', tr, b5⟩ := r2
                    simp only [Option.map_some, Option.bind_some, updLower_alike]
                    cases updLower b5 axis seg.1 <;> rfl
    · rfl

theorem make_alike (h : Alike emb eqv eqv') (x : Nat → Nat → K) (policy : List Nat → Nat → Box K' → Nat)
    (bucketSize maxDepth nf : Nat) (vmax vlowest : K) (idx : List Nat) :
    make eqv' (fun i a => emb (x i a)) policy bucketSize maxDepth nf (emb vmax) (emb vlowest) idx =
      (make eqv x (fun idx d b => policy idx d (mapBox emb b)) bucketSize maxDepth nf vmax vlowest idx).map
        (fun r => (r.1, mapTree emb r.2)) := by
  simp only [make, tightBound_alike h.lt, build_alike h]
  cases build eqv x (fun idx d b => policy idx d (mapBox emb b)) bucketSize maxDepth (idx.length + 1) idx 0
    (tightBound x nf vmax vlowest idx) <;> rfl

end Verif.KDTree

namespace Verif.Search

open Verif.KDTree Verif.Buffer

variable {K K' : Type} [LT K] [DecidableLT K] [LT K'] [DecidableLT K'] {emb : K → K'}

theorem offerAll_alike {B B' : Type} {ops : BufferOps B} {ops' : BufferOps B'} {f : B → B'}
    (ho : ∀ b i, ops'.offer (f b) i = (ops.offer b i).map f) (idx : List Nat) (b : B) :
    offerAll ops' (f b) idx = (offerAll ops b idx).map f := by
  unfold offerAll
  induction idx generalizing b with
  | nil => rfl
  | cons i idx ih =>
    simp only [List.foldlM_cons, ho, Option.bind_eq_bind]
    cases ops.offer b i with
    | none => rfl
    | some b1 => simp only [Option.map_some, Option.bind_some]; exact ih b1

theorem walk_alike {B B' : Type} {ops : BufferOps B} {ops' : BufferOps B'} {f : B → B'}
    (hlt : ∀ a b, emb a < emb b ↔ a < b) (x : Nat → Nat → K) (q : Nat → K)
    (ho : ∀ b i, ops'.offer (f b) i = (ops.offer b i).map f)
    (hv : ∀ b l p a, ops'.visit (f b) l p a = ops.visit b l p a) (t : KDTree.Tree K) (b : B) :
    walk (fun i a => emb (x i a)) (fun a => emb (q a)) ops' (mapTree emb t) (f b) =
      (walk x q ops t b).map f := by
  induction t generalizing b with
  | leaf idx box => exact offerAll_alike ho idx b
  | node p a box l r ihl ihr =>
    simp only [mapTree, walk, offerAll_alike ho, hlt, Option.bind_eq_bind]
    cases offerAll ops b [p] with
    | none => rfl
    | some b1 =>
      simp only [Option.map_some, Option.bind_some]
      by_cases h : q a < x p a
      · simp only [h, if_true, ihl]
        cases walk x q ops l b1 with
        | none => rfl
        | some b2 =>
          simp only [Option.map_some, Option.bind_some, hv, ihr]
          split <;> rfl
      · simp only [h, if_false, ihr]
        cases walk x q ops r b1 with
        | none => rfl
        | some b2 =>
          simp only [Option.map_some, Option.bind_some, hv, ihl]
          split <;> rfl

variable {D D' : Type} [LT D] [DecidableLT D] [LT D'] [DecidableLT D'] {ed : D → D'}

/-- The buffer with its distances replaced. -/
def mapBuf (ed : D → D') (b : Buf D) : Buf D' :=
  { indices := b.indices, distances := b.distances.map ed, closestIndex := b.closestIndex,
    closestDistance := ed b.closestDistance, furthestPos := b.furthestPos,
    furthestDistance := ed b.furthestDistance, maxCapacity := b.maxCapacity }

theorem maxElementLoop_alike (hlt : ∀ a b, ed a < ed b ↔ a < b) :
    ∀ (l : List D) (pos bp : Nat) (v : D), maxElementLoop (l.map ed) pos bp (ed v) =
      ((maxElementLoop l pos bp v).1, ed (maxElementLoop l pos bp v).2) := by
  intro l
  induction l with
  | nil => intros; rfl
  | cons y l ih =>
    intro pos bp v
    simp only [List.map_cons, maxElementLoop, hlt]
    split <;> rw [ih]

theorem update_alike (hlt : ∀ a b, ed a < ed b ↔ a < b) (b : Buf D) (i : Nat) (d : D) :
    (mapBuf ed b).update i (ed d) = (b.update i d).map (mapBuf ed) := by
  have hrem : (mapBuf ed b).remaining = b.remaining := rfl
  have hassign : ∀ (l : List D) (p : Nat) (v : D),
      assign (l.map ed) p (ed v) = (assign l p v).map (List.map ed) := by
    intro l p v
    simp only [assign, List.length_map]
    split <;> simp
  simp only [Buf.update]
  rw [hrem]
  have hind : (mapBuf ed b).indices = b.indices := rfl
  rw [hind]
  by_cases h0 : b.indices.length = 0
  · simp only [h0, if_true]
    simp [mapBuf]
  · simp only [h0, if_false]
    by_cases h1 : b.remaining ≠ 0
    · rw [if_pos h1, if_pos h1]
      have hc : (ed d < (mapBuf ed b).closestDistance) ↔ d < b.closestDistance := hlt _ _
      by_cases h2 : d < b.closestDistance
      · by_cases h3 : d > b.furthestDistance
        · simp [h2, h3, mapBuf, hlt]
        · simp only [gt_iff_lt] at h3; simp [h2, h3, mapBuf, hlt]
      · by_cases h3 : d > b.furthestDistance
        · simp only [gt_iff_lt] at h3; simp [h2, h3, mapBuf, hlt]
        · simp only [gt_iff_lt] at h3; simp [h2, h3, mapBuf, hlt]
    · rw [if_neg h1, if_neg h1]
      have hf : (ed d < (mapBuf ed b).furthestDistance) ↔ d < b.furthestDistance := hlt _ _
      simp only [hf]
      by_cases h2 : d < b.furthestDistance
      · simp only [h2, if_true]
        have hc : (ed d < (mapBuf ed b).closestDistance) ↔ d < b.closestDistance := hlt _ _
        have hdist : (mapBuf ed b).distances = b.distances.map ed := rfl
        have hpos : (mapBuf ed b).furthestPos = b.furthestPos := rfl
        have hmax : ∀ l : List D, getMaxIndexValuePair (l.map ed) =
            (getMaxIndexValuePair l).map (fun r => (r.1, ed r.2)) := by
          intro l
          cases l with
          | nil => rfl
          | cons y l => simp only [List.map_cons, getMaxIndexValuePair, maxElementLoop_alike hlt, Option.map_some]
        simp only [hc]
        by_cases h3 : d < b.closestDistance
        · simp only [h3, if_true, hind, hpos, hdist, hassign]
          cases assign b.indices b.furthestPos i with
          | none => rfl
          | some l1 =>
            cases assign b.distances b.furthestPos d with
            | none => rfl
            | some l2 =>
              simp only [Option.bind_eq_bind, Option.bind_some, Option.map_some, hmax]
              cases getMaxIndexValuePair l2 <;> rfl
        · simp only [h3, if_false, hind, hpos, hdist, hassign]
          cases assign b.indices b.furthestPos i with
          | none => rfl
          | some l1 =>
            cases assign b.distances b.furthestPos d with
            | none => rfl
            | some l2 =>
              simp only [Option.bind_eq_bind, Option.bind_some, Option.map_some, hmax]
              cases getMaxIndexValuePair l2 <;> rfl
      · simp only [h2, if_false, Option.map_some]

theorem search_alike [LE D] [DecidableLE D] [LE D'] [DecidableLE D']
    (hlt : ∀ a b, emb a < emb b ↔ a < b) (hdlt : ∀ a b, ed a < ed b ↔ a < b)
    (hdle : ∀ a b, ed a ≤ ed b ↔ a ≤ b) (x : Nat → Nat → K) (q : Nat → K)
    {gap : K → K → D} {gap' : K' → K' → D'} (hgap : ∀ p a, gap' (emb (x p a)) (emb (q a)) = ed (gap (x p a) (q a)))
    {cand : Nat → Option D} {cand' : Nat → Option D'} (hcand : ∀ i, cand' i = (cand i).map ed)
    (t : KDTree.Tree K) (b : Buf D) :
    search (fun i a => emb (x i a)) (fun a => emb (q a))
        (staticOps (fun i a => emb (x i a)) (fun a => emb (q a)) gap' cand') (mapTree emb t) (mapBuf ed b) =
      (search x q (staticOps x q gap cand) t b).map (mapBuf ed) := by
  rw [search_eq_walk, search_eq_walk]
  refine walk_alike hlt x q ?_ ?_ t b
  · intro b i
    simp only [staticOps, Buf.offer, hcand]
    cases cand i with
    | none => rfl
    | some d => exact update_alike hdlt b i d
  · intro b l p a
    simp only [staticOps, visitSibling, hgap]
    have h1 : (mapBuf ed b).remaining = b.remaining := rfl
    have h2 : (mapBuf ed b).furthestDistance = ed b.furthestDistance := rfl
    rw [h1, h2]
    simp only [hdlt, hdle]

end Verif.Search
