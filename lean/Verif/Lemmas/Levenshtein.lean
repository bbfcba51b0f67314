import Verif.Model.Levenshtein
import Verif.Spec.Levenshtein
import Mathlib.Tactic.Common

namespace Verif.Levenshtein

variable {α : Type}

/-! ### alignments -/

/-- Alignments of two sequences with their cost. -/
inductive Align : Nat → List α → List α → Prop
  | nil : Align 0 [] []
  | ins {n l r} (b : α) : Align n l r → Align (n + 1) l (b :: r)
  | del {n l r} (a : α) : Align n l r → Align (n + 1) (a :: l) r
  | same {n l r} (a : α) : Align n l r → Align n (a :: l) (a :: r)
  | subst {n l r} (a b : α) : Align n l r → Align (n + 1) (a :: l) (b :: r)

theorem Align.refl : ∀ l : List α, Align 0 l l
  | [] => .nil
  | a :: l => .same a (Align.refl l)

theorem Align.pre {n : Nat} {l r : List α} (h : Align n l r) : ∀ p : List α, Align n (p ++ l) (p ++ r)
  | [] => h
  | a :: p => .same a (h.pre p)

theorem Edit.cons {l r : List α} (h : Edit l r) (a : α) : Edit (a :: l) (a :: r) := by
  cases h with
  | insert p s b => exact Edit.insert (a :: p) s b
  | delete p s b => exact Edit.delete (a :: p) s b
  | substitute p s b c => exact Edit.substitute (a :: p) s b c

theorem Edits.cons {n : Nat} {l r : List α} (h : Edits n l r) (a : α) :
    Edits n (a :: l) (a :: r) := by
  induction h with
  | refl l => exact .refl _
  | step h _ ih => exact .step (h.cons a) ih

theorem Align.edits {n : Nat} {l r : List α} (h : Align n l r) : Edits n l r := by
  induction h with
  | nil => exact .refl _
  | @ins n l r b _ ih => exact .step (Edit.insert [] l b) (ih.cons b)
  | @del n l r a _ ih => exact .step (Edit.delete [] l a) ih
  | same a _ ih => exact ih.cons a
  | @subst n l r a b _ ih => exact .step (Edit.substitute [] l a b) (ih.cons b)

theorem Edit.align {l r : List α} (h : Edit l r) : Align 1 l r := by
  cases h with
  | insert p s a => exact ((Align.refl s).ins a).pre p
  | delete p s a => exact ((Align.refl s).del a).pre p
  | substitute p s a b => exact ((Align.refl s).subst a b).pre p

/-- Composition of alignments. -/
theorem Align.trans {n : Nat} {l m : List α} (h1 : Align n l m) :
    ∀ {k : Nat} {r : List α}, Align k m r → ∃ j ≤ n + k, Align j l r := by
  induction h1 with
  | nil => intro k r h2; exact ⟨k, by omega, h2⟩
  | @ins n l m b _ ih =>
    intro k r h2
    generalize hm : b :: m = m' at h2
    induction h2 with
    | nil => simp at hm
    | ins c _ ih2 =>
      obtain ⟨j, hj, h⟩ := ih2 hm
      exact ⟨j + 1, by omega, h.ins c⟩
    | del a h _ =>
      simp only [List.cons.injEq] at hm
      obtain ⟨j, hj, h'⟩ := ih (hm.2 ▸ h)
      exact ⟨j, by omega, h'⟩
    | same a h _ =>
      simp only [List.cons.injEq] at hm
      obtain ⟨j, hj, h'⟩ := ih (hm.2 ▸ h)
      exact ⟨j + 1, by omega, h'.ins a⟩
    | subst a c h _ =>
      simp only [List.cons.injEq] at hm
      obtain ⟨j, hj, h'⟩ := ih (hm.2 ▸ h)
      exact ⟨j + 1, by omega, h'.ins c⟩
  | del a _ ih =>
    intro k r h2
    obtain ⟨j, hj, h⟩ := ih h2
    exact ⟨j + 1, by omega, h.del a⟩
  | @same n l m b _ ih =>
    intro k r h2
    generalize hm : b :: m = m' at h2
    induction h2 with
    | nil => simp at hm
    | ins c _ ih2 =>
      obtain ⟨j, hj, h⟩ := ih2 hm
      exact ⟨j + 1, by omega, h.ins c⟩
    | del a h _ =>
      simp only [List.cons.injEq] at hm
      obtain ⟨j, hj, h'⟩ := ih (hm.2 ▸ h)
      exact ⟨j + 1, by omega, h'.del b⟩
    | same a h _ =>
      simp only [List.cons.injEq] at hm
      obtain ⟨j, hj, h'⟩ := ih (hm.2 ▸ h)
      exact ⟨j, by omega, hm.1 ▸ h'.same b⟩
    | subst a c h _ =>
      simp only [List.cons.injEq] at hm
      obtain ⟨j, hj, h'⟩ := ih (hm.2 ▸ h)
      exact ⟨j + 1, by omega, h'.subst b c⟩
  | @subst n l m a0 b _ ih =>
    intro k r h2
    generalize hm : b :: m = m' at h2
    induction h2 with
    | nil => simp at hm
    | ins c _ ih2 =>
      obtain ⟨j, hj, h⟩ := ih2 hm
      exact ⟨j + 1, by omega, h.ins c⟩
    | del a h _ =>
      simp only [List.cons.injEq] at hm
      obtain ⟨j, hj, h'⟩ := ih (hm.2 ▸ h)
      exact ⟨j + 1, by omega, h'.del a0⟩
    | same a h _ =>
      simp only [List.cons.injEq] at hm
      obtain ⟨j, hj, h'⟩ := ih (hm.2 ▸ h)
      exact ⟨j + 1, by omega, h'.subst a0 a⟩
    | subst a c h _ =>
      simp only [List.cons.injEq] at hm
      obtain ⟨j, hj, h'⟩ := ih (hm.2 ▸ h)
      exact ⟨j + 1, by omega, h'.subst a0 c⟩

theorem Edits.align {n : Nat} {l r : List α} (h : Edits n l r) : ∃ j ≤ n, Align j l r := by
  induction h with
  | refl l => exact ⟨0, Nat.le_refl _, Align.refl l⟩
  | step h _ ih =>
    obtain ⟨j, hj, h'⟩ := ih
    obtain ⟨j', hj', h''⟩ := h.align.trans h'
    exact ⟨j', by omega, h''⟩

/-- Adding a common end and the other cases at the end of the sequences. -/
theorem Align.app {n k : Nat} {l r l' r' : List α} (h : Align n l r) (h' : Align k l' r') :
    Align (n + k) (l ++ l') (r ++ r') := by
  induction h with
  | nil => simpa using h'
  | ins b _ ih => rw [Nat.add_right_comm]; exact ih.ins b
  | del a _ ih => rw [Nat.add_right_comm]; exact ih.del a
  | same a _ ih => exact ih.same a
  | subst a b _ ih => rw [Nat.add_right_comm]; exact ih.subst a b

theorem Align.reverse {n : Nat} {l r : List α} (h : Align n l r) : Align n l.reverse r.reverse := by
  induction h with
  | nil => exact .nil
  | @ins n l r b _ ih => simpa using ih.app ((Align.nil).ins b)
  | @del n l r a _ ih => simpa using ih.app ((Align.nil).del a)
  | @same n l r a _ ih => simpa using ih.app ((Align.nil).same a)
  | @subst n l r a b _ ih => simpa using ih.app ((Align.nil).subst a b)

/-! ### the recursion -/

variable [DecidableEq α]

/-- Edit distance by recursion on the heads. -/
def dist : List α → List α → Nat
  | [], r => r.length
  | _ :: l, [] => l.length + 1
  | a :: l, b :: r =>
    min (dist l (b :: r) + 1) (min (dist (a :: l) r + 1) (if a = b then dist l r else dist l r + 1))
termination_by l r => l.length + r.length

theorem dist_nil_right (l : List α) : dist l [] = l.length := by
  cases l <;> simp [dist]

theorem dist_le_of_align {n : Nat} {l r : List α} (h : Align n l r) : dist l r ≤ n := by
  induction h with
  | nil => simp [dist]
  | @ins n l r b _ ih =>
    cases l with
    | nil => simp [dist] at ih ⊢; omega
    | cons a l => rw [dist]; omega
  | @del n l r a _ ih =>
    cases r with
    | nil => rw [dist_nil_right] at ih ⊢; simp; omega
    | cons b r => rw [dist]; omega
  | same a _ ih => rw [dist]; simp only [if_true]; omega
  | subst a b _ ih => rw [dist]; split <;> omega

theorem align_dist : ∀ l r : List α, Align (dist l r) l r
  | [], r => by
    induction r with
    | nil => simpa [dist] using Align.nil
    | cons b r ih => simpa [dist] using Align.ins b (by simpa [dist] using ih)
  | a :: l, [] => by
    have := align_dist l []
    rw [dist_nil_right] at this
    simpa [dist] using this.del a
  | a :: l, b :: r => by
    have h1 := (align_dist l (b :: r)).del a
    have h2 := (align_dist (a :: l) r).ins b
    have h3 := align_dist l r
    rw [dist]
    by_cases hab : a = b
    · subst hab
      have h4 := h3.same a
      simp only [if_true]
      rcases Nat.le_total (dist l (a :: r) + 1) (min (dist (a :: l) r + 1) (dist l r)) with h | h
      · rw [Nat.min_eq_left h]; exact h1
      · rw [Nat.min_eq_right h]
        rcases Nat.le_total (dist (a :: l) r + 1) (dist l r) with h | h
        · rw [Nat.min_eq_left h]; exact h2
        · rw [Nat.min_eq_right h]; exact h4
    · have h4 := h3.subst a b
      simp only [hab, if_false]
      rcases Nat.le_total (dist l (b :: r) + 1) (min (dist (a :: l) r + 1) (dist l r + 1)) with h | h
      · rw [Nat.min_eq_left h]; exact h1
      · rw [Nat.min_eq_right h]
        rcases Nat.le_total (dist (a :: l) r + 1) (dist l r + 1) with h | h
        · rw [Nat.min_eq_left h]; exact h2
        · rw [Nat.min_eq_right h]; exact h4
termination_by l r => l.length + r.length

theorem isEditDistance_dist (l r : List α) : IsEditDistance l r (dist l r) := by
  refine ⟨(align_dist l r).edits, ?_⟩
  intro k hk
  obtain ⟨j, hj, h⟩ := hk.align
  exact Nat.le_trans (dist_le_of_align h) hj

theorem dist_reverse (l r : List α) : dist l.reverse r.reverse = dist l r := by
  apply Nat.le_antisymm
  · exact dist_le_of_align (align_dist l r).reverse
  · have := dist_le_of_align (align_dist l.reverse r.reverse).reverse
    simpa using this

/-- Distance between prefixes, the entry of the matrix the programme fills. -/
def cell (left right : List α) (i j : Nat) : Nat := dist (left.take i) (right.take j)

theorem cell_succ (left right : List α) (i j : Nat) (a b : α) (ha : left[i]? = some a)
    (hb : right[j]? = some b) :
    cell left right (i + 1) (j + 1) =
      min (cell left right i (j + 1) + 1) (min (cell left right (i + 1) j + 1)
        (if a = b then cell left right i j else cell left right i j + 1)) := by
  have h1 : left.take (i + 1) = left.take i ++ [a] := by
    rw [List.take_add_one, ha]; rfl
  have h2 : right.take (j + 1) = right.take j ++ [b] := by
    rw [List.take_add_one, hb]; rfl
  have e1 : cell left right (i + 1) (j + 1) =
      dist (a :: (left.take i).reverse) (b :: (right.take j).reverse) := by
    unfold cell; rw [← dist_reverse, h1, h2]; simp
  have e2 : cell left right i (j + 1) = dist (left.take i).reverse (b :: (right.take j).reverse) := by
    unfold cell; rw [← dist_reverse, h2]; simp
  have e3 : cell left right (i + 1) j = dist (a :: (left.take i).reverse) (right.take j).reverse := by
    unfold cell; rw [← dist_reverse, h1]; simp
  have e4 : cell left right i j = dist (left.take i).reverse (right.take j).reverse := by
    unfold cell; rw [← dist_reverse]
  rw [e1, e2, e3, e4, dist]

/-! ### the loops -/

/-- The row `i` of the matrix. -/
def IsRow (left right : List α) (i : Nat) (row : List Nat) : Prop :=
  row.length = right.length + 1 ∧ ∀ j ≤ right.length, row[j]? = some (cell left right i j)

theorem inner_spec (left right : List α) (i : Nat) (hi : i < left.length) (prev : List Nat)
    (hprev : IsRow left right i prev) :
    ∀ (n : Nat) (cur : List Nat), n ≤ right.length → cur.length = right.length + 1 →
      cur[0]? = some (i + 1) →
      ∃ cur', (List.range n).foldlM (innerStep left right i prev) cur = some cur' ∧
        cur'.length = right.length + 1 ∧ ∀ j ≤ n, cur'[j]? = some (cell left right (i + 1) j) := by
  intro n
  induction n with
  | zero =>
    intro cur _ hl h0
    refine ⟨cur, rfl, hl, ?_⟩
    intro j hj
    have : j = 0 := by omega
    subst this
    rw [h0]
    simp [cell, dist_nil_right]
    omega
  | succ n ih =>
    intro cur hn hl h0
    obtain ⟨cur1, e1, hl1, h1⟩ := ih cur (by omega) hl h0
    rw [List.range_succ, List.foldlM_append, e1]
    have ha : left[i]? = some left[i] := List.getElem?_eq_getElem hi
    have hb : right[n]? = some right[n] := List.getElem?_eq_getElem (by omega)
    have hp1 := hprev.2 (n + 1) (by omega)
    have hp0 := hprev.2 n (by omega)
    have hc0 := h1 n (Nat.le_refl _)
    have hlt : n + 1 < cur1.length := by omega
    refine ⟨cur1.set (n + 1) (cell left right (i + 1) (n + 1)), ?_, by simp [hl1], ?_⟩
    · simp only [Option.bind_eq_bind, Option.bind_some, List.foldlM_cons, List.foldlM_nil,
        innerStep, ha, hb, hp1, hp0, hc0, hlt, if_true, cell_succ left right i n _ _ ha hb]
      rfl
    · intro j hj
      by_cases hjn : j = n + 1
      · subst hjn
        simp [hlt]
      · rw [List.getElem?_set_ne (by omega)]
        exact h1 j (by omega)

theorem outer_spec (left right : List α) :
    ∀ (n : Nat), n ≤ left.length →
      ∃ prev cur, (List.range n).foldlM (outerStep left right)
          (List.range (right.length + 1), List.replicate (right.length + 1) 0) = some (prev, cur) ∧
        IsRow left right n prev ∧ cur.length = right.length + 1 := by
  intro n
  induction n with
  | zero =>
    intro _
    refine ⟨_, _, rfl, ⟨by simp, ?_⟩, by simp⟩
    intro j hj
    rw [List.getElem?_range (by omega)]
    simp only [cell, List.take_zero, dist, List.length_take]
    congr 1
    omega
  | succ n ih =>
    intro hn
    obtain ⟨prev, cur, e, hrow, hl⟩ := ih (by omega)
    rw [List.range_succ (n := n), List.foldlM_append, e]
    obtain ⟨cur', e', hl', h'⟩ := inner_spec left right n (by omega) prev hrow right.length
      (cur.set 0 (n + 1)) (Nat.le_refl _) (by simp [hl]) (by
        rw [List.getElem?_set_self (by omega)])
    refine ⟨cur', prev, ?_, ⟨hl', h'⟩, hrow.1⟩
    have : 0 < cur.length := by omega
    simp only [Option.bind_eq_bind, Option.bind_some, List.foldlM_cons, List.foldlM_nil, outerStep,
      this, if_true, e']
    rfl

theorem levenshtein_eq (left right : List α) : levenshtein left right = some (dist left right) := by
  obtain ⟨prev, cur, e, hrow, _⟩ := outer_spec left right left.length (Nat.le_refl _)
  have := hrow.2 right.length (Nat.le_refl _)
  simp only [levenshtein, e, Option.bind_eq_bind, Option.bind_some, this]
  simp [cell]

end Verif.Levenshtein
