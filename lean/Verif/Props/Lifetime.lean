import Verif.Model.Lifetime
import Verif.Props.Search

/-
C97: visited samples are left out whatever way the buffer gets its set.
-/

namespace Verif.Lifetime

open Verif.KDTree Verif.Buffer Verif.Search Verif.Distances

variable {K D : Type} [LinearOrder K] [LinearOrder D]

theorem memOffer_eq {h : Heap} {ref : Nat} {s : List Nat} (hs : h ref = some s) (cand : Nat → Option D) :
    memOffer h ref cand = Buf.offer (candUnvisited s cand) := by
  funext b i
  simp only [memOffer, Buf.offer, candUnvisited, hs, Option.bind_eq_bind, Option.bind_some]
  cases cand i with
  | none => rfl
  | some d =>
    simp only
    split <;> rfl

/-- The search in place leaves out the set that the reference is bound to. -/
theorem searchIn_eq {h : Heap} {b : MemBuf D} {s : List Nat} (hs : h b.ref = some s) (x : Nat → Nat → K)
    (q : Nat → K) (gap : K → K → D) (cand : Nat → Option D) (t : KDTree.Tree K) :
    searchIn x q gap cand t b h =
      (search x q (staticOps x q gap (candUnvisited s cand)) t b.buf).map fun r => { b with buf := r } := by
  unfold searchIn staticOps
  rw [memOffer_eq hs]
  cases search x q _ t b.buf <;> rfl

theorem callSearcher_eq (left : List Nat → List Nat) (elide : Bool) (loc res : Nat) (x : Nat → Nat → K)
    (q : Nat → K) (gap : K → K → D) (cand : Nat → Option D) (t : KDTree.Tree K) (b : MemBuf D) (h : Heap) :
    callSearcher left elide loc res x q gap cand t b h =
      (searchIn x q gap cand t (moveTo left loc b h).1 (moveTo left loc b h).2).bind fun b2 =>
        if elide then some (b2, (moveTo left loc b h).2)
        else some ((moveTo left res b2 (moveTo left loc b h).2).1,
          destroy b2 (moveTo left res b2 (moveTo left loc b h).2).2) := rfl

/-- C97 (set of the caller): with a reference to a set of the caller the searcher leaves out the visited
samples, the result can be searched with again, and the set is unchanged. -/
theorem C97_reference (left : List Nat → List Nat) (elide : Bool) (x : Nat → Nat → K) (q : Nat → K)
    (gap : K → K → D) (cand : Nat → Option D) (t : KDTree.Tree K) (inf : D) (k self ext loc res : Nat) (h : Heap)
    (visited : List Nat) (he : h ext = some visited) (h1 : self ≠ ext) (h2 : loc ≠ ext) (h3 : res ≠ ext) :
    let b := withReference inf k self ext h
    (callSearcher left elide loc res x q gap cand t b.1 b.2).map (fun r => r.1.buf) =
        search x q (staticOps x q gap (candUnvisited visited cand)) t (Buffer.mk inf k) ∧
      ∀ r, callSearcher left elide loc res x q gap cand t b.1 b.2 = some r →
        (destroy b.1 r.2) ext = some visited ∧ r.1.ref = ext := by
  intro b
  have hm : (moveTo left loc b.1 b.2).2 (moveTo left loc b.1 b.2).1.ref = some visited := by
    show Function.update (Function.update (Function.update h self _) loc _) self _ ext = _
    rw [Function.update_of_ne (Ne.symm h1), Function.update_of_ne (Ne.symm h2),
      Function.update_of_ne (Ne.symm h1), he]
  have key := searchIn_eq (b := (moveTo left loc b.1 b.2).1) hm x q gap cand t
  have hb : (moveTo left loc b.1 b.2).1.buf = Buffer.mk inf k := rfl
  rw [hb] at key
  refine ⟨?_, ?_⟩
  · rw [callSearcher_eq, key]
    cases search x q (staticOps x q gap (candUnvisited visited cand)) t (Buffer.mk inf k) with
    | none => rfl
    | some r => cases elide <;> rfl
  · intro r hr
    rw [callSearcher_eq, key] at hr
    cases hs : search x q (staticOps x q gap (candUnvisited visited cand)) t (Buffer.mk inf k) with
    | none => rw [hs] at hr; exact absurd hr (by simp)
    | some s =>
      rw [hs] at hr
      have hm' : (moveTo left loc b.1 b.2).2 ext = some visited := hm
      cases elide with
      | true =>
        simp only [Option.map_some, Option.bind_some, if_true, Option.some.injEq] at hr
        subst hr
        refine ⟨?_, rfl⟩
        show Function.update (moveTo left loc b.1 b.2).2 self none ext = _
        rw [Function.update_of_ne (Ne.symm h1)]
        exact hm'
      | false =>
        simp only [Option.map_some, Option.bind_some, Bool.false_eq_true, if_false, Option.some.injEq] at hr
        subst hr
        refine ⟨?_, rfl⟩
        show Function.update (Function.update (Function.update (Function.update (moveTo left loc b.1 b.2).2 res _) loc _) loc none)
          self none ext = _
        rw [Function.update_of_ne (Ne.symm h1), Function.update_of_ne (Ne.symm h2),
          Function.update_of_ne (Ne.symm h2), Function.update_of_ne (Ne.symm h3)]
        exact hm'

/-- C97 (set in the buffer, before it is moved): a search in place leaves out the visited samples. -/
theorem C97_owned_partial (x : Nat → Nat → K) (q : Nat → K) (gap : K → K → D) (cand : Nat → Option D)
    (t : KDTree.Tree K) (inf : D) (k self : Nat) (h : Heap) (visited : List Nat) :
    let b := withOwned inf k self visited h
    (searchIn x q gap cand t b.1 b.2).map (fun r => r.buf) =
      search x q (staticOps x q gap (candUnvisited visited cand)) t (Buffer.mk inf k) := by
  intro b
  have hm : b.2 b.1.ref = some visited := Function.update_self _ _ _
  rw [searchIn_eq hm]
  have hb : b.1.buf = Buffer.mk inf k := rfl
  rw [hb]
  cases search x q (staticOps x q gap (candUnvisited visited cand)) t (Buffer.mk inf k) <;> rfl

/-- C97 (set in the buffer, with a searcher): false for every data set and query.  The searcher moves the
buffer, whose reference stays bound to the set that was moved from: only what is left in it is left out,
nothing when it is empty.  After the expression the result refers to a set that is gone, and offering it any
candidate is undefined. -/
theorem C97_owned_counterexample (left : List Nat → List Nat) (elide : Bool) (x : Nat → Nat → K) (q : Nat → K)
    (gap : K → K → D) (cand : Nat → Option D) (t : KDTree.Tree K) (inf : D) (k self loc res : Nat) (h : Heap)
    (visited : List Nat) (h4 : self ≠ loc) (hl : left visited = []) :
    let b := withOwned inf k self visited h
    (callSearcher left elide loc res x q gap cand t b.1 b.2).map (fun r => r.1.buf) =
        search x q (staticOps x q gap cand) t (Buffer.mk inf k) ∧
      ∀ r, callSearcher left elide loc res x q gap cand t b.1 b.2 = some r → ∀ i, (cand i).isSome →
        ∀ r', memOffer (destroy b.1 r.2) r.1.ref cand r' i = none := by
  intro b
  have hm : (moveTo left loc b.1 b.2).2 (moveTo left loc b.1 b.2).1.ref = some [] := by
    show Function.update (Function.update (Function.update h self _) loc _) self
      ((Function.update h self (some visited) self).map left) self = _
    rw [Function.update_self, Function.update_self, Option.map_some, hl]
  have key := searchIn_eq (b := (moveTo left loc b.1 b.2).1) hm x q gap cand t
  have hb : (moveTo left loc b.1 b.2).1.buf = Buffer.mk inf k := rfl
  have hc : candUnvisited [] cand = cand := by
    funext i
    unfold candUnvisited
    cases cand i <;> simp
  rw [hb, hc] at key
  refine ⟨?_, ?_⟩
  · rw [callSearcher_eq, key]
    cases search x q (staticOps x q gap cand) t (Buffer.mk inf k) with
    | none => rfl
    | some r => cases elide <;> rfl
  · intro r hr i hi r'
    have href : r.1.ref = self := by
      rw [callSearcher_eq, key] at hr
      cases hs : search x q (staticOps x q gap cand) t (Buffer.mk inf k) with
      | none => rw [hs] at hr; exact absurd hr (by simp)
      | some s =>
        rw [hs] at hr
        cases elide with
        | true =>
          simp only [Option.map_some, Option.bind_some, if_true, Option.some.injEq] at hr
          subst hr; rfl
        | false =>
          simp only [Option.map_some, Option.bind_some, Bool.false_eq_true, if_false, Option.some.injEq] at hr
          subst hr; rfl
    obtain ⟨d, hd⟩ := Option.isSome_iff_exists.1 hi
    have hn : (destroy b.1 r.2) self = none := Function.update_self _ _ _
    simp only [memOffer, hd, href, hn, Option.bind_eq_bind, Option.bind_none]

/-! Samples 0, 3, 7 on a line and the query 1 with sample 0 visited: the nearest sample that is left is
3, which the reference version finds; the owned version returns the visited sample. -/

def exX : Nat → Nat → ℤ := fun i _ => [0, 3, 7].getD i 0

def exTree : KDTree.Tree ℤ := .leaf [0, 1, 2] []

def exCand : Nat → Option ℤ := candAll fun i => |exX i 0 - 1|

example :
    let b := withReference (0 : ℤ) 1 10 20 (Function.update (fun _ => none) 20 (some [0]))
    (callSearcher (fun _ => []) true 11 12 exX (fun _ => 1) (fun v w => |v - w|) exCand exTree b.1 b.2).map
      (fun r => r.1.buf.indices) = some [1] := by decide +kernel

/-- C97, a visited sample is returned. -/
theorem C97_visited_returned_counterexample :
    let b := withOwned (0 : ℤ) 1 10 [0] (fun _ => none)
    (callSearcher (fun _ => []) true 11 12 exX (fun _ => 1) (fun v w => |v - w|) exCand exTree b.1 b.2).map
      (fun r => r.1.buf.indices) = some [0] := by decide +kernel

end Verif.Lifetime
