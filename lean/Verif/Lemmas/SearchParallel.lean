import Verif.Spec.SearchParallel
import Verif.Spec.Parallel
import Verif.Lemmas.Parallel

/-
Threads that only read.
-/

namespace Verif.Parallel

open KDTree

section

variable {L : Type} {V : L → Type} {A B : Type}

/-- A thread that only reads, from locations in `R`; when every read gives a value allowed by `ok`, its result
satisfies `Q`. -/
def Prog.Reads (ok : (l : L) → V l → Prop) (R : L → Prop) (Q : A → Prop) : Prog V A → Prop
  | .ret a => Q a
  | .read l k => R l ∧ ∀ v, ok l v → (k v).Reads ok R Q
  | .write _ _ _ => False

theorem Prog.Reads.bind {ok : (l : L) → V l → Prop} {R : L → Prop} {Q : A → Prop} {Q' : B → Prop} {p : Prog V A}
    {f : A → Prog V B} (h : p.Reads ok R Q) (hf : ∀ a, Q a → (f a).Reads ok R Q') :
    (p.bind f).Reads ok R Q' := by
  induction p with
  | ret a => exact hf a h
  | read l k ih => exact ⟨h.1, fun v hv => ih v (h.2 v hv)⟩
  | write l v k ih => exact h.elim

theorem Prog.Reads.mono {ok : (l : L) → V l → Prop} {R R' : L → Prop} {Q Q' : A → Prop} {p : Prog V A}
    (h : p.Reads ok R Q) (hR : ∀ l, R l → R' l) (hQ : ∀ a, Q a → Q' a) : p.Reads ok R' Q' := by
  induction p with
  | ret a => exact hQ a h
  | read l k ih => exact ⟨hR _ h.1, fun v hv => ih v (h.2 v hv)⟩
  | write l v k ih => exact h.elim

/-- The thread alone. -/
theorem Prog.Reads.run [DecidableEq L] {m : Mem V} {R : L → Prop} {Q : A → Prop} {p : Prog V A}
    (h : p.Reads (fun l v => v = m l) R Q) : Q (p.run m).1 ∧ (p.run m).2 = m := by
  induction p with
  | ret a => exact ⟨h, rfl⟩
  | read l k ih => exact ih _ (h.2 _ rfl)
  | write l v k ih => exact h.elim

theorem Prog.Reads.within {R : L → Prop} {Q : A → Prop} {p : Prog V A}
    (h : p.Reads (fun _ _ => True) R Q) : p.Within R (fun _ => False) := by
  induction p with
  | ret a => trivial
  | read l k ih => exact ⟨h.1, fun v => ih v (h.2 v trivial)⟩
  | write l v k ih => exact h.elim

/-- Threads that only read: no race, and each has its own result. -/
theorem correct_of_reads [DecidableEq L] {m : Mem V} {R : L → Prop} {ts : List (Prog V A)}
    {res : List A} (h : List.Forall₂ (fun p a => p.Reads (fun l v => v = m l) R (· = a)) ts res) :
    Correct (ts, m) R (fun d => d = (res.map .ret, m)) := by
  -- the invariant: the memory is the same, and the threads still do the same
  have inv : ∀ n d, Steps n (ts, m) d → d.2 = m ∧
      List.Forall₂ (fun p a => p.Reads (fun l v => v = m l) R (· = a)) d.1 res ∧
      n + (d.1.map fun p => p.cost m).sum = (ts.map fun p => p.cost m).sum := by
    intro n d hs
    generalize hc0 : ((ts, m) : Config V A) = c0 at hs
    induction hs with
    | refl => subst hc0; exact ⟨rfl, h, by simp⟩
    | tail hs st ih =>
      replace ih := ih hc0
      obtain ⟨i, p, p', hp, hact⟩ := st
      rename_i n' t' m1 m2
      obtain ⟨rfl, hf, hc⟩ := ih
      have hi := (List.getElem?_eq_some_iff.1 hp).1
      have hir : i < res.length := by rw [← hf.length_eq]; exact hi
      have hpr := List.Forall₂.get hf hi hir
      simp only [List.get_eq_getElem] at hpr
      rw [(List.getElem?_eq_some_iff.1 hp).2] at hpr
      cases p with
      | ret a => simp [act] at hact
      | write l v k => exact hpr.elim
      | read l k =>
        simp only [act, Option.some.injEq, Prod.mk.injEq] at hact
        obtain ⟨rfl, rfl⟩ := hact
        refine ⟨rfl, ?_, ?_⟩
        · rw [List.forall₂_iff_get]
          refine ⟨by simpa using hf.length_eq, fun j h1 h2 => ?_⟩
          simp only [List.get_eq_getElem, List.getElem_set]
          split
          · rename_i hij
            subst hij
            exact hpr.2 _ rfl
          · exact List.Forall₂.get hf (by simpa using h1) h2
        · rw [← hc]
          have hget : t'[i] = .read l k := (List.getElem?_eq_some_iff.1 hp).2
          have e1 : t' = t'.take i ++ .read l k :: t'.drop (i + 1) := by
            rw [← hget, List.getElem_cons_drop, List.take_append_drop]
          have e2 : t'.set i (k (m1 l)) = t'.take i ++ k (m1 l) :: t'.drop (i + 1) :=
            List.set_eq_take_append_cons_drop.trans (by rw [if_pos hi])
          simp only
          rw [e2]
          conv_rhs => rw [e1]
          simp only [List.map_append, List.map_cons, List.sum_append, List.sum_cons, Prog.cost]
          omega
  have noWrite : ∀ n d, Steps n (ts, m) d → ∀ p ∈ d.1, ∀ l w, p.next = some (l, w) → w = false ∧ R l := by
    intro n d hs p hp l w hn
    obtain ⟨i, hi, rfl⟩ := List.getElem_of_mem hp
    have hf := (inv n d hs).2.1
    have hpr := List.Forall₂.get hf hi (by rw [← hf.length_eq]; exact hi)
    simp only [List.get_eq_getElem] at hpr
    cases hq : d.1[i] with
    | ret a => rw [hq] at hn; simp [Prog.next] at hn
    | write l v k => rw [hq] at hpr; exact hpr.elim
    | read l' k =>
      rw [hq] at hn hpr
      simp only [Prog.next, Option.some.injEq, Prod.mk.injEq] at hn
      exact ⟨hn.2.symm, hn.1 ▸ hpr.1⟩
  refine ⟨?_, ?_, ⟨_, fun n d hs => (inv n d hs).2.2 ▸ Nat.le_add_right _ _⟩, ?_⟩
  · rintro n d hs ⟨i, j, p, q, l, w, w', _, hp, hq, h1, h2, h3⟩
    have a := (noWrite n d hs p (List.mem_of_getElem? hp) l w h1).1
    have b := (noWrite n d hs q (List.mem_of_getElem? hq) l w' h2).1
    simp [a, b] at h3
  · exact fun n d hs p hp l w hn => (noWrite n d hs p hp l w hn).2
  · intro n d hs hfin
    obtain ⟨h1, h2, _⟩ := inv n d hs
    refine Prod.ext ?_ h1
    refine List.ext_getElem (by simpa using h2.length_eq) fun i hi hi' => ?_
    have hir : i < res.length := by simpa using hi'
    have hpr := List.Forall₂.get h2 hi hir
    simp only [List.get_eq_getElem] at hpr
    obtain ⟨a, ha⟩ := hfin d.1[i] (List.getElem_mem hi)
    rw [ha] at hpr ⊢
    simp only [List.getElem_map]
    rw [show a = res[i] from hpr]

end

/-! ### searches -/

section

variable {K : Type} [LT K] [DecidableLT K] {B : Type}

/-- The tree a search sees in the memory. -/
def treeAt (m : Mem (SearchVal K)) : Shape K → KDTree.Tree K
  | .leaf first last box => .leaf ((List.range' first (last - first)).map fun p => m (.index p)) box
  | .node p a box l r => .node (m (.index p)) a box (treeAt m l) (treeAt m r)

theorem treeAt_view (arr : List Nat) (x : Nat → Nat → K) (s : Shape K) (t : KDTree.Tree K)
    (h : s.view arr = some t) : treeAt (searchMem arr x) s = t ∧ ∀ p ∈ positions s, p < arr.length := by
  induction s generalizing t with
  | leaf first last box =>
    simp only [Shape.view] at h
    split at h
    · rename_i hl
      simp only [Option.some.injEq] at h
      subst h
      constructor
      · simp only [treeAt, Tree.leaf.injEq, and_true]
        apply List.ext_getElem
        · simp; omega
        · intro i h1 h2
          simp only [List.length_map, List.length_range'] at h1
          simp [searchMem, List.getD_eq_getElem?_getD, List.getElem?_eq_getElem (show first + i < arr.length by omega)]
      · intro p hp
        simp only [positions, List.mem_range'_1] at hp
        omega
    · simp at h
  | node p a box l r ihl ihr =>
    simp only [Shape.view, Option.bind_eq_bind] at h
    obtain ⟨i, h1, h⟩ := Option.bind_eq_some_iff.1 h
    obtain ⟨tl, h2, h⟩ := Option.bind_eq_some_iff.1 h
    obtain ⟨tr, h3, h⟩ := Option.bind_eq_some_iff.1 h
    simp only [Option.some.injEq] at h
    subst h
    obtain ⟨e1, e2⟩ := ihl _ h2
    obtain ⟨e3, e4⟩ := ihr _ h3
    refine ⟨?_, ?_⟩
    · simp only [treeAt, e1, e3]
      simp [searchMem, List.getD_eq_getElem?_getD, h1]
    · intro q hq
      simp only [positions, List.mem_append, List.mem_cons] at hq
      rcases hq with hq | rfl | hq
      · exact e2 q hq
      · exact (List.getElem?_eq_some_iff.1 h1).1
      · exact e4 q hq

theorem shapeCount_treeAt (m : Mem (SearchVal K)) (s : Shape K) :
    Search.nodeCount (treeAt m s) = shapeCount s := by
  induction s with
  | leaf => rfl
  | node p a box l r ihl ihr => simp [treeAt, Search.nodeCount, shapeCount, ihl, ihr]

/-- The reads that belong to positions satisfying `P`. -/
def Under (m : Mem (SearchVal K)) (P : Nat → Prop) : SearchLoc → Prop
  | .index p => P p
  | .sample i => ∃ p, P p ∧ i = m (.index p)

variable (ops : LocalOps K B) (m : Mem (SearchVal K)) (P : Nat → Prop)

/-- Only the value in the memory. -/
abbrev Exact (m : Mem (SearchVal K)) : (l : SearchLoc) → SearchVal K l → Prop := fun l v => v = m l

/-- The samples in the memory. -/
abbrev samples (m : Mem (SearchVal K)) : Nat → Nat → K := fun i => m (.sample i)

theorem offerProg_reads (ps : List Nat) (b : B) (hp : ∀ p ∈ ps, P p) :
    (offerProg ops ps b).Reads (Exact m) (Under m P)
      (· = Search.offerAll (ops.on (samples m)) b (ps.map fun p => m (.index p))) := by
  induction ps generalizing b with
  | nil => rfl
  | cons p ps ih =>
    refine ⟨hp p (by simp), ?_⟩
    rintro _ rfl
    refine ⟨⟨p, hp p (by simp), rfl⟩, ?_⟩
    rintro _ rfl
    have e : Search.offerAll (ops.on (samples m)) b ((p :: ps).map fun p => m (.index p)) =
        (ops.offer b (m (.index p)) (m (.sample (m (.index p))))).bind fun b =>
          Search.offerAll (ops.on (samples m)) b (ps.map fun p => m (.index p)) := rfl
    rw [e]
    dsimp only
    cases ops.offer b (m (.index p)) (m (.sample (m (.index p)))) with
    | none => exact rfl
    | some b' => exact ih b' fun q hq => hp q (by simp [hq])

/-- A frame as the sequential search has it. -/
def frameAt (f : PosFrame K) : Search.Frame K := ⟨m (.index f.pivot), f.axis, f.isLeft, treeAt m f.sibling⟩

theorem andThen_reads {A C : Type} {R : SearchLoc → Prop} {ok : (l : SearchLoc) → SearchVal K l → Prop}
    {Q : Option A → Prop} {Q' : Option C → Prop}
    {p : Prog (SearchVal K) (Option A)} {f : A → Prog (SearchVal K) (Option C)} (h : p.Reads ok R Q)
    (h0 : Q none → Q' none) (h1 : ∀ a, Q (some a) → (f a).Reads ok R Q') :
    (p.andThen f).Reads ok R Q' := by
  refine h.bind fun a ha => ?_
  cases a with
  | none => exact h0 ha
  | some a => exact h1 a ha

theorem descendProg_reads (s : Shape K) (b : B) (hp : ∀ p ∈ positions s, P p) :
    (descendProg ops s b).Reads (Exact m) (Under m P) fun r =>
      (r.map fun r => (r.1, r.2.map (frameAt m))) =
        Search.descend (samples m) ops.query (ops.on (samples m)) (treeAt m s) b ∧
      ∀ b' fs, r = some (b', fs) → ∀ f ∈ fs, P f.pivot ∧ ∀ p ∈ positions f.sibling, P p := by
  induction s generalizing b with
  | leaf first last box =>
    refine andThen_reads (offerProg_reads ops m P _ b hp) ?_ ?_
    · intro h
      refine ⟨?_, by simp⟩
      simp only [Search.descend, treeAt, ← h]
      rfl
    · intro b' h
      refine ⟨?_, ?_⟩
      · simp only [Search.descend, treeAt, ← h]
        rfl
      · rintro _ _ he
        simp only [Option.some.injEq, Prod.mk.injEq] at he
        simp [← he.2]
  | node p a box l r ihl ihr =>
    have hpp : P p := hp p (by simp [positions])
    have hl : ∀ q ∈ positions l, P q := fun q hq => hp q (by simp [positions, hq])
    have hr : ∀ q ∈ positions r, P q := fun q hq => hp q (by simp [positions, hq])
    refine andThen_reads (offerProg_reads ops m P [p] b (by simpa using hpp)) ?_ ?_
    · intro h
      refine ⟨?_, by simp⟩
      have h' : Search.offerAll (ops.on (samples m)) b [m (.index p)] = none := h.symm
      simp only [Search.descend, treeAt, h']
      rfl
    · intro b' h
      have h' : Search.offerAll (ops.on (samples m)) b [m (.index p)] = some b' := h.symm
      refine ⟨hpp, ?_⟩
      rintro _ rfl
      refine ⟨⟨p, hpp, rfl⟩, ?_⟩
      rintro _ rfl
      simp only [Search.descend, treeAt, h', Option.bind_eq_bind, Option.bind_some]
      split
      · refine andThen_reads (ihl b' hl) ?_ ?_
        · rintro ⟨h1, _⟩
          refine ⟨?_, by simp⟩
          rw [← h1]; rfl
        · rintro ⟨b2, fs⟩ ⟨h1, h2⟩
          refine ⟨?_, ?_⟩
          · rw [← h1]; simp [frameAt]
          · intro b3 fs3 he f hf
            simp only [Option.some.injEq, Prod.mk.injEq] at he
            obtain ⟨rfl, rfl⟩ := he
            rcases List.mem_append.1 hf with hf | hf
            · exact h2 _ _ rfl f hf
            · rw [List.mem_singleton.1 hf]; exact ⟨hpp, hr⟩
      · refine andThen_reads (ihr b' hr) ?_ ?_
        · rintro ⟨h1, _⟩
          refine ⟨?_, by simp⟩
          rw [← h1]; rfl
        · rintro ⟨b2, fs⟩ ⟨h1, h2⟩
          refine ⟨?_, ?_⟩
          · rw [← h1]; simp [frameAt]
          · intro b3 fs3 he f hf
            simp only [Option.some.injEq, Prod.mk.injEq] at he
            obtain ⟨rfl, rfl⟩ := he
            rcases List.mem_append.1 hf with hf | hf
            · exact h2 _ _ rfl f hf
            · rw [List.mem_singleton.1 hf]; exact ⟨hpp, hl⟩

theorem traverseProg_reads (fuel : Nat) (s : Shape K) (b : B) (hp : ∀ p ∈ positions s, P p) :
    (traverseProg ops fuel s b).Reads (Exact m) (Under m P)
      (· = Search.traverse (samples m) ops.query (ops.on (samples m)) fuel (treeAt m s) b) := by
  induction fuel generalizing s b with
  | zero => rfl
  | succ fuel ih =>
    refine andThen_reads (descendProg_reads ops m P s b hp) ?_ ?_
    · rintro ⟨h, _⟩
      simp only [Search.traverse, ← h]
      rfl
    · rintro ⟨b', fs⟩ ⟨h, h2⟩
      simp only [Search.traverse, ← h, Option.map_some, Option.bind_eq_bind, Option.bind_some]
      replace h2 := h2 _ _ rfl
      clear h
      induction fs generalizing b' with
      | nil => rfl
      | cons f fs ihf =>
        refine ⟨(h2 f (by simp)).1, ?_⟩
        rintro _ rfl
        refine ⟨⟨_, (h2 f (by simp)).1, rfl⟩, ?_⟩
        rintro _ rfl
        simp only [List.map_cons, List.foldlM_cons]
        have hv : (ops.on (samples m)).visit b' (frameAt m f).isLeft (frameAt m f).pivot (frameAt m f).axis =
            ops.visit b' f.isLeft (m (.sample (m (.index f.pivot)))) f.axis := rfl
        rw [hv]
        cases ops.visit b' f.isLeft (m (.sample (m (.index f.pivot)))) f.axis with
        | false =>
          simp only [Bool.false_eq_true, if_false, Option.bind_eq_bind, Option.bind_some]
          exact ihf b' fun g hg => h2 g (by simp [hg])
        | true =>
          simp only [if_true]
          refine andThen_reads (ih f.sibling b' (h2 f (by simp)).2) ?_ ?_
          · intro h
            have : Search.traverse (samples m) ops.query (ops.on (samples m)) fuel (frameAt m f).sibling b' = none := h.symm
            rw [this]; rfl
          · intro b2 h
            have : Search.traverse (samples m) ops.query (ops.on (samples m)) fuel (frameAt m f).sibling b' = some b2 := h.symm
            rw [this]
            exact ihf b2 fun g hg => h2 g (by simp [hg])

/-! whatever the memory holds -/

/-- The index positions `P` and all samples. -/
def Around (P : Nat → Prop) : SearchLoc → Prop
  | .index p => P p
  | .sample _ => True

theorem offerProg_around (ps : List Nat) (b : B) (hp : ∀ p ∈ ps, P p) :
    (offerProg ops ps b).Reads (fun _ _ => True) (Around P) (fun _ => True) := by
  induction ps generalizing b with
  | nil => trivial
  | cons p ps ih =>
    refine ⟨hp p (by simp), fun i _ => ⟨trivial, fun y _ => ?_⟩⟩
    simp only
    cases ops.offer b i y with
    | none => trivial
    | some b' => exact ih b' fun q hq => hp q (by simp [hq])

theorem descendProg_around (s : Shape K) (b : B) (hp : ∀ p ∈ positions s, P p) :
    (descendProg ops s b).Reads (fun _ _ => True) (Around P) fun r =>
      ∀ b' fs, r = some (b', fs) → ∀ f ∈ fs, P f.pivot ∧ ∀ p ∈ positions f.sibling, P p := by
  induction s generalizing b with
  | leaf first last box =>
    refine andThen_reads (offerProg_around ops P _ b hp) (by simp) ?_
    rintro b' _ _ _ he
    simp only [Option.some.injEq, Prod.mk.injEq] at he
    simp [← he.2]
  | node p a box l r ihl ihr =>
    have hpp : P p := hp p (by simp [positions])
    have hl : ∀ q ∈ positions l, P q := fun q hq => hp q (by simp [positions, hq])
    have hr : ∀ q ∈ positions r, P q := fun q hq => hp q (by simp [positions, hq])
    refine andThen_reads (offerProg_around ops P [p] b (by simpa using hpp)) (by simp) ?_
    intro b' _
    refine ⟨hpp, fun i _ => ⟨trivial, fun y _ => ?_⟩⟩
    simp only
    split
    · refine andThen_reads (ihl b' hl) (by simp) ?_
      rintro ⟨b2, fs⟩ h2 b3 fs3 he f hf
      simp only [Option.some.injEq, Prod.mk.injEq] at he
      obtain ⟨rfl, rfl⟩ := he
      rcases List.mem_append.1 hf with hf | hf
      · exact h2 _ _ rfl f hf
      · rw [List.mem_singleton.1 hf]; exact ⟨hpp, hr⟩
    · refine andThen_reads (ihr b' hr) (by simp) ?_
      rintro ⟨b2, fs⟩ h2 b3 fs3 he f hf
      simp only [Option.some.injEq, Prod.mk.injEq] at he
      obtain ⟨rfl, rfl⟩ := he
      rcases List.mem_append.1 hf with hf | hf
      · exact h2 _ _ rfl f hf
      · rw [List.mem_singleton.1 hf]; exact ⟨hpp, hl⟩

theorem traverseProg_around (fuel : Nat) (s : Shape K) (b : B) (hp : ∀ p ∈ positions s, P p) :
    (traverseProg ops fuel s b).Reads (fun _ _ => True) (Around P) (fun _ => True) := by
  induction fuel generalizing s b with
  | zero => trivial
  | succ fuel ih =>
    refine andThen_reads (descendProg_around ops P s b hp) (by simp) ?_
    rintro ⟨b', fs⟩ h2
    replace h2 := h2 _ _ rfl
    induction fs generalizing b' with
    | nil => trivial
    | cons f fs ihf =>
      refine ⟨(h2 f (by simp)).1, fun i _ => ⟨trivial, fun y _ => ?_⟩⟩
      simp only
      split
      · exact andThen_reads (ih f.sibling b' (h2 f (by simp)).2) (by simp)
          fun b2 _ => ihf b2 fun g hg => h2 g (by simp [hg])
      · exact ihf b' fun g hg => h2 g (by simp [hg])

end

end Verif.Parallel
