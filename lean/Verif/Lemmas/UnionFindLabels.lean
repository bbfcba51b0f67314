import Verif.Spec.UnionFind
import Mathlib.Logic.Function.Iterate
import Mathlib.Data.List.Nodup
import Mathlib.Data.List.Perm.Subperm
import Mathlib.Tactic.Common

/-
Union-find over an arbitrary array of parents: `find` unwinds cycles.
-/

namespace Verif.UF

/-- The elements connected by the parents. -/
def Same (ps : List Nat) (a b : Nat) : Prop := Relation.EqvGen (fun a b => ps[a]? = some b) a b

/-- The parents are indices. -/
structure InRange (n : Nat) (ps : List Nat) : Prop where
  length : ps.length = n
  lt : ∀ (i v : Nat), ps[i]? = some v → v < n

theorem InRange.get {n : Nat} {ps : List Nat} (h : InRange n ps) {i : Nat} (hi : i < n) :
    ∃ v, ps[i]? = some v ∧ v < n := by
  have hl : i < ps.length := by rw [h.length]; exact hi
  exact ⟨ps[i], List.getElem?_eq_getElem hl, h.lt i _ (List.getElem?_eq_getElem hl)⟩

theorem InRange.index {n : Nat} {ps : List Nat} (h : InRange n ps) {i v : Nat} (e : ps[i]? = some v) :
    i < n := by
  rw [← h.length]; exact (List.getElem?_eq_some_iff.1 e).1

theorem InRange.set {n : Nat} {ps : List Nat} (h : InRange n ps) {i g : Nat} (hg : g < n) :
    InRange n (ps.set i g) := by
  refine ⟨by rw [List.length_set]; exact h.length, ?_⟩
  intro j v e
  rw [List.getElem?_set] at e
  split at e
  · split at e
    · simp only [Option.some.injEq] at e; omega
    · simp at e
  · exact h.lt j v e

theorem get_set {ps : List Nat} {i t : Nat} (e : ps[i]? = some t) (g x : Nat) :
    (ps.set i g)[x]? = if x = i then some g else ps[x]? := by
  rw [List.getElem?_set]
  have hi : i < ps.length := (List.getElem?_eq_some_iff.1 e).1
  by_cases hx : x = i
  · subst hx; simp [hi]
  · rw [if_neg hx, if_neg (fun h => hx h.symm)]

/-! ### connection -/

theorem Same.of_imp {ps qs : List Nat} (h : ∀ a b, ps[a]? = some b → Same qs a b) {a b : Nat}
    (H : Same ps a b) : Same qs a b := by
  induction H with
  | rel x y e => exact h x y e
  | refl x => exact .refl x
  | symm x y _ ih => exact ih.symm
  | trans x y z _ _ ih1 ih2 => exact ih1.trans _ _ _ ih2

theorem same_set {ps : List Nat} {i t g : Nat} (e1 : ps[i]? = some t) (e2 : ps[t]? = some g)
    (hne : i ≠ t) (a b : Nat) : Same (ps.set i g) a b ↔ Same ps a b := by
  constructor
  · refine Same.of_imp ?_
    intro x y e
    rw [get_set e1] at e
    split at e
    · simp only [Option.some.injEq] at e
      subst e
      rename_i hx
      subst hx
      exact Relation.EqvGen.trans _ _ _ (.rel _ _ e1) (.rel _ _ e2)
    · exact .rel _ _ e
  · refine Same.of_imp ?_
    intro x y e
    by_cases hx : x = i
    · subst hx
      rw [e1] at e
      simp only [Option.some.injEq] at e
      subst e
      refine Relation.EqvGen.trans _ g _ (.rel _ _ ?_) (Relation.EqvGen.symm _ _ (.rel _ _ ?_))
      · rw [get_set e1, if_pos rfl]
      · rw [get_set e1, if_neg (fun h => hne h.symm)]; exact e2
    · exact .rel _ _ (by rw [get_set e1, if_neg hx]; exact e)

/-- The parent, as a total function. -/
def next (ps : List Nat) (a : Nat) : Nat := (ps[a]?).getD a

theorem same_join {ps : List Nat} {a b : Nat} (h : Same ps a b) :
    ∃ k l, (next ps)^[k] a = (next ps)^[l] b := by
  induction h with
  | rel x y e => exact ⟨1, 0, by simp [next, e]⟩
  | refl x => exact ⟨0, 0, rfl⟩
  | symm x y _ ih => obtain ⟨k, l, h⟩ := ih; exact ⟨l, k, h.symm⟩
  | trans x y z _ _ ih1 ih2 =>
    obtain ⟨k, l, h1⟩ := ih1
    obtain ⟨k', l', h2⟩ := ih2
    refine ⟨k' + k, l + l', ?_⟩
    rw [Function.iterate_add_apply, h1, ← Function.iterate_add_apply, Nat.add_comm k' l,
      Function.iterate_add_apply, h2, ← Function.iterate_add_apply]

/-- A set has at most one root. -/
theorem same_root {ps : List Nat} {a b : Nat} (h : Same ps a b) (ha : ps[a]? = some a)
    (hb : ps[b]? = some b) : a = b := by
  obtain ⟨k, l, e⟩ := same_join h
  have fa : ∀ k, (next ps)^[k] a = a := fun k => Function.iterate_fixed (by simp [next, ha]) k
  have fb : ∀ k, (next ps)^[k] b = b := fun k => Function.iterate_fixed (by simp [next, hb]) k
  rw [fa, fb] at e
  exact e

/-! ### the loop of `find` -/

/-- Each element of the list has the following one as its parent, the last one `e`. -/
def Path (ps : List Nat) : List Nat → Nat → Prop
  | [], _ => True
  | x :: l, e => ps[x]? = some (l.head?.getD e) ∧ Path ps l e

theorem path_set {ps : List Nat} {x t : Nat} (e : ps[x]? = some t) (g : Nat) : ∀ (l : List Nat) (z : Nat),
    x ∉ l → Path ps l z → Path (ps.set x g) l z := by
  intro l
  induction l with
  | nil => intro z _ _; trivial
  | cons a l ih =>
    intro z hx h
    simp only [List.mem_cons, not_or] at hx
    refine ⟨?_, ih z hx.2 h.2⟩
    rw [get_set e, if_neg (fun h => hx.1 h.symm)]
    exact h.1

theorem path_snoc {ps : List Nat} : ∀ (l : List Nat) (y e : Nat), Path ps l y → ps[y]? = some e →
    Path ps (l ++ [y]) e := by
  intro l
  induction l with
  | nil => intro y e _ h; exact ⟨by simpa using h, trivial⟩
  | cons a l ih =>
    intro y e h hy
    refine ⟨?_, ih y e h.2 hy⟩
    rw [h.1]
    cases l <;> simp

/-- From `i` the parents lead along `tail` into the cycle `y :: ys`. -/
structure Lasso (ps : List Nat) (i : Nat) (tail : List Nat) (y : Nat) (ys : List Nat) : Prop where
  nodup : (tail ++ y :: ys).Nodup
  path : Path ps (tail ++ y :: ys) y
  head : (tail ++ y :: ys).head? = some i

theorem exists_lasso_aux {n : Nat} {ps : List Nat} (h : InRange n ps) (i : Nat) : ∀ (k : Nat)
    (l : List Nat) (e : Nat), n ≤ l.length + k → l.Nodup → (∀ x ∈ l, x < n) → Path ps l e →
    (l ++ [e]).head? = some i → e < n →
    ∃ tail y ys, Lasso ps i tail y ys ∧ (∀ x ∈ tail ++ y :: ys, x < n) := by
  intro k
  induction k with
  | zero =>
    intro l e hk hnd hlt hp hhead he
    have hmem : e ∈ l := by
      by_contra hne
      have : (e :: l).Nodup := List.nodup_cons.2 ⟨hne, hnd⟩
      have hsub : (e :: l) ⊆ List.range n := by
        intro x hx
        rw [List.mem_range]
        rcases List.mem_cons.1 hx with rfl | hx
        · exact he
        · exact hlt x hx
      have := (this.subperm hsub).length_le
      simp only [List.length_cons, List.length_range] at this
      omega
    obtain ⟨tail, ys, rfl⟩ := List.append_of_mem hmem
    exact ⟨tail, e, ys, ⟨hnd, hp, by simpa using hhead⟩, hlt⟩
  | succ k ih =>
    intro l e hk hnd hlt hp hhead he
    by_cases hmem : e ∈ l
    · obtain ⟨tail, ys, rfl⟩ := List.append_of_mem hmem
      exact ⟨tail, e, ys, ⟨hnd, hp, by simpa using hhead⟩, hlt⟩
    · obtain ⟨v, hv, hvn⟩ := h.get he
      refine ih (l ++ [e]) v (by simp; omega) ?_ ?_ (path_snoc l e v hp hv) ?_ hvn
      · rw [List.nodup_append]
        refine ⟨hnd, by simp, ?_⟩
        intro a ha b hb
        simp only [List.mem_singleton] at hb
        subst hb
        rintro rfl
        exact hmem ha
      · intro x hx
        rcases List.mem_append.1 hx with hx | hx
        · exact hlt x hx
        · simp only [List.mem_singleton] at hx; omega
      · cases l <;> simpa using hhead

theorem exists_lasso {n : Nat} {ps : List Nat} (h : InRange n ps) {i : Nat} (hi : i < n) :
    ∃ tail y ys, Lasso ps i tail y ys ∧ tail.length + (ys.length + 1) ≤ n := by
  obtain ⟨tail, y, ys, hl, hlt⟩ := exists_lasso_aux h i n [] i (by simp) (by simp) (by simp) trivial
    (by simp) hi
  refine ⟨tail, y, ys, hl, ?_⟩
  have := (hl.nodup.subperm (fun x hx => List.mem_range.2 (hlt x hx))).length_le
  simpa using this

/-- The loop stops at a root of the set of its argument; the sets and the other roots stay. -/
theorem findLoop_lasso {n : Nat} : ∀ (fuel : Nat) (ps : List Nat) (i : Nat) (tail : List Nat) (y : Nat)
    (ys : List Nat), InRange n ps → Lasso ps i tail y ys → tail.length + 2 * (ys.length + 1) ≤ fuel + 1 →
    ∃ ps' r, findLoop fuel ps i = some (ps', r) ∧ InRange n ps' ∧ ps'[r]? = some r ∧
      (∀ a b, Same ps' a b ↔ Same ps a b) ∧ Same ps i r ∧ ∀ (x : Nat), ps[x]? = some x → ps'[x]? = some x := by
  intro fuel
  induction fuel with
  | zero =>
    intro ps i tail y ys h hl hf
    omega
  | succ fuel ih =>
    intro ps i tail y ys h hl hf
    cases tail with
    | nil =>
      have hi : i = y := by simpa using hl.head.symm
      subst hi
      cases ys with
      | nil =>
        have hp := hl.path.1
        simp only [List.nil_append, List.head?_nil, Option.getD_none] at hp
        refine ⟨ps, i, ?_, h, hp, fun _ _ => Iff.rfl, .refl _, fun _ h => h⟩
        simp [findLoop, hp]
      | cons z zs =>
        have hp := hl.path
        simp only [List.nil_append, Path, List.head?_cons, Option.getD_some] at hp
        obtain ⟨p1, p2, p3⟩ := hp
        have hnd := hl.nodup
        simp only [List.nil_append, List.nodup_cons, List.mem_cons, not_or] at hnd
        obtain ⟨⟨n1, n2⟩, n3, n4⟩ := hnd
        have hg : zs.head?.getD i < n := h.lt _ _ p2
        have p4 : Path (ps.set i (zs.head?.getD i)) (z :: zs) i :=
          path_set p1 _ (z :: zs) i (by simp [n1, n2]) ⟨p2, p3⟩
        have p5 := path_snoc (z :: zs) i (zs.head?.getD i) p4 (by rw [get_set p1, if_pos rfl])
        have hnd' : ((z :: zs) ++ [i]).Nodup := by
          rw [List.nodup_append]
          refine ⟨List.nodup_cons.2 ⟨n3, n4⟩, by simp, ?_⟩
          intro a ha b hb
          simp only [List.mem_singleton] at hb
          subst hb
          rintro rfl
          rcases List.mem_cons.1 ha with ha | ha
          · exact n1 ha
          · exact n2 ha
        have hlasso : ∃ y' ys', Lasso (ps.set i (zs.head?.getD i)) z [z] y' ys' ∧ ys'.length = zs.length := by
          cases zs with
          | nil => exact ⟨i, [], ⟨hnd', p5, rfl⟩, rfl⟩
          | cons w ws => exact ⟨w, ws ++ [i], ⟨hnd', p5, rfl⟩, by simp⟩
        obtain ⟨y', ys', hl', hlen⟩ := hlasso
        simp only [List.length_nil, List.length_cons] at hf
        obtain ⟨ps', r, e, h', hr, hs, hsr, hfix⟩ := ih _ z [z] y' ys' (h.set hg) hl'
          (by simp only [List.length_singleton]; omega)
        refine ⟨ps', r, ?_, h', hr, ?_, ?_, ?_⟩
        · simp only [findLoop, p1, p2, Option.bind_eq_bind, Option.bind_some]
          rw [if_neg n1, e]
        · intro a b; rw [hs, same_set p1 p2 n1]
        · exact Relation.EqvGen.trans _ _ _ (.rel _ _ p1) ((same_set p1 p2 n1 _ _).1 hsr)
        · intro x hx
          refine hfix x ?_
          rw [get_set p1, if_neg]
          · exact hx
          · rintro rfl
            rw [p1] at hx
            simp only [Option.some.injEq] at hx
            exact n1 hx.symm
    | cons x tl =>
      have hi : i = x := by simpa using hl.head.symm
      subst hi
      have hp := hl.path
      simp only [List.cons_append, Path] at hp
      obtain ⟨p1, p2⟩ := hp
      have hnd := hl.nodup
      simp only [List.cons_append, List.nodup_cons] at hnd
      -- the next element and its parent
      obtain ⟨t, rest, hrest⟩ : ∃ t rest, tl ++ y :: ys = t :: rest := by
        cases tl with
        | nil => exact ⟨y, ys, rfl⟩
        | cons a tl => exact ⟨a, _, rfl⟩
      rw [hrest] at p1 p2 hnd
      simp only [List.head?_cons, Option.getD_some] at p1
      obtain ⟨p3, p4⟩ := p2
      have hne : i ≠ t := fun h => hnd.1 (by simp [h])
      have hg : rest.head?.getD y < n := h.lt _ _ p3
      have hl' : Lasso (ps.set i (rest.head?.getD y)) t tl y ys := by
        refine ⟨by rw [hrest]; exact hnd.2, ?_, by rw [hrest]; rfl⟩
        rw [hrest]
        exact path_set p1 _ _ _ hnd.1 ⟨p3, p4⟩
      simp only [List.length_cons] at hf
      obtain ⟨ps', r, e, h', hr, hs, hsr, hfix⟩ := ih _ t tl y ys (h.set hg) hl' (by omega)
      refine ⟨ps', r, ?_, h', hr, ?_, ?_, ?_⟩
      · simp only [findLoop, p1, p3, Option.bind_eq_bind, Option.bind_some]
        rw [if_neg hne, e]
      · intro a b; rw [hs, same_set p1 p3 hne]
      · exact Relation.EqvGen.trans _ _ _ (.rel _ _ p1) ((same_set p1 p3 hne _ _).1 hsr)
      · intro x hx
        refine hfix x ?_
        rw [get_set p1, if_neg]
        · exact hx
        · rintro rfl
          rw [p1] at hx
          simp only [Option.some.injEq] at hx
          exact hne hx.symm

/-! ### operations -/

/-- What is needed of the state: both arrays have the right length and the parents are indices. -/
structure Any (n : Nat) (s : State) : Prop where
  parents : InRange n s.parents
  ranks : s.ranks.length = n

theorem find_any {n : Nat} {s : State} (h : Any n s) {i : Nat} (hi : i < n) :
    ∃ s' r, find s i = some (s', r) ∧ Any n s' ∧ s'.ranks = s.ranks ∧ r < n ∧
      s'.parents[r]? = some r ∧ (∀ a b, Same s'.parents a b ↔ Same s.parents a b) ∧
      Same s.parents i r ∧ ∀ (x : Nat), s.parents[x]? = some x → s'.parents[x]? = some x := by
  obtain ⟨tail, y, ys, hl, hlen⟩ := exists_lasso h.parents hi
  obtain ⟨ps', r, e, h1, h2, h3, h4, h5⟩ := findLoop_lasso (2 * s.parents.length + 1) s.parents i tail y ys
    h.parents hl (by rw [h.parents.length]; omega)
  refine ⟨{ s with parents := ps' }, r, by simp [find, e], ⟨h1, h.ranks⟩, rfl, h1.index h2, h2, h3, h4, h5⟩

/-- A root is attached to another root. -/
theorem same_link {ps : List Nat} {r1 r2 : Nat} (h2 : ps[r2]? = some r2) (a b : Nat) :
    Same (ps.set r2 r1) a b ↔ Relation.EqvGen (fun a b => Same ps a b ∨ a = r1 ∧ b = r2) a b := by
  constructor
  · intro h
    induction h with
    | rel x y e =>
      rw [get_set h2] at e
      split at e
      · rename_i hx
        simp only [Option.some.injEq] at e
        subst hx e
        exact Relation.EqvGen.symm _ _ (.rel _ _ (Or.inr ⟨rfl, rfl⟩))
      · exact .rel _ _ (Or.inl (.rel _ _ e))
    | refl x => exact .refl x
    | symm x y _ ih => exact ih.symm
    | trans x y z _ _ ih1 ih2 => exact ih1.trans _ _ _ ih2
  · intro h
    induction h with
    | rel x y e =>
      rcases e with e | ⟨rfl, rfl⟩
      · refine Same.of_imp ?_ e
        intro u v e
        by_cases hu : u = r2
        · subst hu
          rw [h2] at e
          simp only [Option.some.injEq] at e
          subst e
          exact .refl _
        · exact .rel _ _ (by rw [get_set h2, if_neg hu]; exact e)
      · exact Relation.EqvGen.symm _ _ (.rel _ _ (by rw [get_set h2, if_pos rfl]))
    | refl x => exact .refl x
    | symm x y _ ih => exact ih.symm
    | trans x y z _ _ ih1 ih2 => exact ih1.trans _ _ _ ih2

/-- Linking two elements or their representatives is the same. -/
theorem eqvGen_link {R : Nat → Nat → Prop} (hR : ∀ a b, Relation.EqvGen R a b → R a b) {i j r1 r2 : Nat}
    (h1 : R i r1) (h2 : R j r2) (a b : Nat) :
    Relation.EqvGen (fun a b => R a b ∨ a = r1 ∧ b = r2) a b →
      Relation.EqvGen (fun a b => R a b ∨ a = i ∧ b = j) a b := by
  intro h
  induction h with
  | rel x y e =>
    rcases e with e | ⟨rfl, rfl⟩
    · exact .rel _ _ (Or.inl e)
    · refine Relation.EqvGen.trans _ i _ (Relation.EqvGen.symm _ _ (.rel _ _ (Or.inl h1))) ?_
      exact Relation.EqvGen.trans _ j _ (.rel _ _ (Or.inr ⟨rfl, rfl⟩)) (.rel _ _ (Or.inl h2))
  | refl x => exact .refl x
  | symm x y _ ih => exact ih.symm
  | trans x y z _ _ ih1 ih2 => exact ih1.trans _ _ _ ih2

theorem eqvGen_swap {R : Nat → Nat → Prop} {i j : Nat} (a b : Nat) :
    Relation.EqvGen (fun a b => R a b ∨ a = i ∧ b = j) a b →
      Relation.EqvGen (fun a b => R a b ∨ a = j ∧ b = i) a b := by
  intro h
  induction h with
  | rel x y e =>
    rcases e with e | ⟨rfl, rfl⟩
    · exact .rel _ _ (Or.inl e)
    · exact Relation.EqvGen.symm _ _ (.rel _ _ (Or.inr ⟨rfl, rfl⟩))
  | refl x => exact .refl x
  | symm x y _ ih => exact ih.symm
  | trans x y z _ _ ih1 ih2 => exact ih1.trans _ _ _ ih2

theorem same_idem {ps : List Nat} (a b : Nat) (h : Relation.EqvGen (Same ps) a b) : Same ps a b := by
  induction h with
  | rel x y e => exact e
  | refl x => exact .refl x
  | symm x y _ ih => exact ih.symm
  | trans x y z _ _ ih1 ih2 => exact ih1.trans _ _ _ ih2

theorem merge_any {n : Nat} {s : State} (h : Any n s) {i j : Nat} (hi : i < n) (hj : j < n) :
    ∃ s' c, merge s i j = some (s', c) ∧ Any n s' ∧ c < n ∧ s'.parents[c]? = some c ∧
      Same s'.parents i c ∧
      ∀ a b, Same s'.parents a b ↔ Relation.EqvGen (fun a b => Same s.parents a b ∨ a = i ∧ b = j) a b := by
  obtain ⟨s1, r1, e1, A1, k1, l1, f1, q1, w1, x1⟩ := find_any h hi
  obtain ⟨s2, r2, e2, A2, k2, l2, f2, q2, w2, x2⟩ := find_any A1 hj
  have f1' := x2 r1 f1
  have hq : ∀ a b, Same s2.parents a b ↔ Same s.parents a b := fun a b => by rw [q2, q1]
  have hqf : Same s2.parents = Same s.parents := by funext a b; exact propext (hq a b)
  have wi : Same s2.parents i r1 := (hq _ _).2 w1
  have wj : Same s2.parents j r2 := (q2 _ _).2 w2
  have hidem : ∀ a b, Relation.EqvGen (Same s2.parents) a b → Same s2.parents a b := fun a b => same_idem a b
  -- the sets after a link, in the two directions
  have link : ∀ a b, Relation.EqvGen (fun a b => Same s2.parents a b ∨ a = r1 ∧ b = r2) a b ↔
      Relation.EqvGen (fun a b => Same s.parents a b ∨ a = i ∧ b = j) a b := by
    intro a b
    rw [← hqf]
    exact ⟨eqvGen_link hidem wi wj a b, eqvGen_link hidem wi.symm wj.symm a b⟩
  have wlink : ∀ a b, Same s2.parents a b →
      Relation.EqvGen (fun a b => Same s2.parents a b ∨ a = r1 ∧ b = r2) a b :=
    fun a b h => .rel _ _ (Or.inl h)
  have wboth : Relation.EqvGen (fun a b => Same s2.parents a b ∨ a = r1 ∧ b = r2) i r2 :=
    Relation.EqvGen.trans _ r1 _ (wlink _ _ wi) (.rel _ _ (Or.inr ⟨rfl, rfl⟩))
  by_cases heq : r1 = r2
  · subst heq
    refine ⟨s2, r1, ?_, A2, l1, f2, wi, ?_⟩
    · simp [merge, e1, e2]
    · intro a b
      rw [← link]
      constructor
      · exact wlink a b
      · intro h
        induction h with
        | rel x y e =>
          rcases e with e | ⟨rfl, rfl⟩
          · exact e
          · exact .refl _
        | refl x => exact .refl x
        | symm x y _ ih => exact ih.symm
        | trans x y z _ _ ih1 ih2 => exact ih1.trans _ _ _ ih2
  · obtain ⟨k1', hk1⟩ : ∃ k, s2.ranks[r1]? = some k :=
      ⟨_, List.getElem?_eq_getElem (by rw [A2.ranks]; exact l1)⟩
    obtain ⟨k2', hk2⟩ : ∃ k, s2.ranks[r2]? = some k :=
      ⟨_, List.getElem?_eq_getElem (by rw [A2.ranks]; exact l2)⟩
    have g1 : (s2.parents.set r2 r1)[r1]? = some r1 := by rw [get_set f2, if_neg heq, f1']
    have g2 : (s2.parents.set r1 r2)[r2]? = some r2 := by
      rw [get_set f1', if_neg (fun h => heq h.symm), f2]
    by_cases hr : k1' = k2'
    · refine ⟨⟨s2.parents.set r2 r1, s2.ranks.set r1 (k1' + 1)⟩, r1, ?_,
        ⟨A2.parents.set l1, by simpa using A2.ranks⟩, l1, g1, ?_, ?_⟩
      · simp only [merge, e1, e2, Option.bind_eq_bind, Option.bind_some, hk1, hk2, f1', g1]
        rw [if_neg heq, if_pos hr]
      · exact (same_link f2 _ _).2 (wlink _ _ wi)
      · intro a b; rw [← link]; exact same_link f2 a b
    · by_cases hgt : k1' > k2'
      · refine ⟨⟨s2.parents.set r2 r1, s2.ranks⟩, r1, ?_, ⟨A2.parents.set l1, A2.ranks⟩, l1, g1, ?_, ?_⟩
        · simp only [merge, e1, e2, Option.bind_eq_bind, Option.bind_some, hk1, hk2]
          rw [if_neg heq, if_neg hr, if_pos hgt]
        · exact (same_link f2 _ _).2 (wlink _ _ wi)
        · intro a b; rw [← link]; exact same_link f2 a b
      · refine ⟨⟨s2.parents.set r1 r2, s2.ranks⟩, r2, ?_, ⟨A2.parents.set l2, A2.ranks⟩, l2, g2, ?_, ?_⟩
        · simp only [merge, e1, e2, Option.bind_eq_bind, Option.bind_some, hk1, hk2]
          rw [if_neg heq, if_neg hr, if_neg hgt]
        · exact (same_link f1' _ _).2 (eqvGen_swap _ _ wboth)
        · intro a b
          rw [← link]
          exact ⟨fun h => eqvGen_swap _ _ ((same_link f1' a b).1 h),
            fun h => (same_link f1' a b).2 (eqvGen_swap _ _ h)⟩

end Verif.UF
