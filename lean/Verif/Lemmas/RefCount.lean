import Verif.Spec.RefCount
import Mathlib.Data.List.Count
import Mathlib.Data.List.Nodup
import Mathlib.Tactic.Common

/-
Reference counts are the numbers of owners.
-/

namespace Verif.RefCount

theorem refs_eq (h : Heap) : refs h = h.flatMap owned := by
  unfold refs
  congr 1

theorem cell_lt {h : Heap} {a : Nat} {c : Cell} (e : cell h a = some c) : h[a]? = some (some c) := by
  unfold cell at e
  cases h' : h[a]? with
  | none => simp [h'] at e
  | some o => simp only [h', Option.join_some] at e; rw [e]

theorem cell_of {h : Heap} {a : Nat} {o : Option Cell} (e : h[a]? = some o) : cell h a = o := by
  simp [cell, e]

theorem cell_length {h : Heap} {a : Nat} {c : Cell} (e : cell h a = some c) : a < h.length :=
  (List.getElem?_eq_some_iff.1 (cell_lt e)).1

theorem count_refs_set : ∀ (h : Heap) (a : Nat) (o o' : Option Cell) (x : Nat), h[a]? = some o →
    (refs (h.set a o')).count x + (owned o).count x = (refs h).count x + (owned o').count x := by
  intro h
  induction h with
  | nil => intro a o o' x e; simp at e
  | cons p h ih =>
    intro a o o' x e
    cases a with
    | zero =>
      simp only [List.getElem?_cons_zero, Option.some.injEq] at e
      subst e
      simp only [refs_eq, List.set_cons_zero, List.flatMap_cons, List.count_append]
      omega
    | succ a =>
      simp only [List.getElem?_cons_succ] at e
      have := ih a o o' x e
      simp only [refs_eq, List.set_cons_succ, List.flatMap_cons, List.count_append] at this ⊢
      omega

theorem length_refs_set : ∀ (h : Heap) (a : Nat) (o o' : Option Cell), h[a]? = some o →
    (refs (h.set a o')).length + (owned o).length = (refs h).length + (owned o').length := by
  intro h
  induction h with
  | nil => intro a o o' e; simp at e
  | cons p h ih =>
    intro a o o' e
    cases a with
    | zero =>
      simp only [List.getElem?_cons_zero, Option.some.injEq] at e
      subst e
      simp only [refs_eq, List.set_cons_zero, List.flatMap_cons, List.length_append]
      omega
    | succ a =>
      simp only [List.getElem?_cons_succ] at e
      have := ih a o o' e
      simp only [refs_eq, List.set_cons_succ, List.flatMap_cons, List.length_append] at this ⊢
      omega

theorem alive_set : ∀ (h : Heap) (a : Nat) (o o' : Option Cell), h[a]? = some o →
    alive (h.set a o') + (if o.isSome then 1 else 0) = alive h + (if o'.isSome then 1 else 0) := by
  intro h
  induction h with
  | nil => intro a o o' e; simp at e
  | cons p h ih =>
    intro a o o' e
    cases a with
    | zero =>
      simp only [List.getElem?_cons_zero, Option.some.injEq] at e
      subst e
      simp only [alive, List.set_cons_zero, List.countP_cons]
      omega
    | succ a =>
      simp only [List.getElem?_cons_succ] at e
      have := ih a o o' e
      simp only [alive, List.set_cons_succ, List.countP_cons] at this ⊢
      omega

theorem Acc.perm {h : Heap} {hs hs' : List Nat} (H : Acc h hs) (hp : hs.Perm hs') : Acc h hs' :=
  fun a => by rw [H a, hp.count_eq]

theorem Acc.exists {h : Heap} {hs : List Nat} (H : Acc h hs) {a : Nat} (ha : a ∈ hs) :
    ∃ c, cell h a = some c := by
  have := H a
  have hpos : 0 < hs.count a := List.count_pos_iff.2 ha
  cases hc : cell h a with
  | none => rw [hc] at this; simp only [owners] at this; omega
  | some c => exact ⟨c, rfl⟩

theorem Acc.exists_of_refs {h : Heap} {hs : List Nat} (H : Acc h hs) {a : Nat} (ha : a ∈ refs h) :
    ∃ c, cell h a = some c := by
  have := H a
  have hpos : 0 < (refs h).count a := List.count_pos_iff.2 ha
  cases hc : cell h a with
  | none => rw [hc] at this; simp only [owners] at this; omega
  | some c => exact ⟨c, rfl⟩

theorem cell_set {h : Heap} {a : Nat} {c : Cell} (e : cell h a = some c) (o : Option Cell) (x : Nat) :
    cell (h.set a o) x = if x = a then o else cell h x := by
  unfold cell
  rw [List.getElem?_set]
  have := cell_length e
  by_cases hx : x = a
  · subst hx; simp [this]
  · rw [if_neg hx, if_neg (fun h => hx h.symm)]

theorem mem_refs {h : Heap} {x : Nat} : x ∈ refs h ↔ ∃ a c, cell h a = some c ∧ x ∈ c.strong := by
  rw [refs_eq, List.mem_flatMap]
  constructor
  · rintro ⟨o, ho, hx⟩
    obtain ⟨a, ha⟩ := List.getElem?_of_mem ho
    cases o with
    | none => simp [owned] at hx
    | some c => exact ⟨a, c, by simp [cell, ha], hx⟩
  · rintro ⟨a, c, e, hx⟩
    exact ⟨some c, List.mem_of_getElem? (cell_lt e), hx⟩

/-! ### operations -/

theorem cell_append {h : Heap} (o : Option Cell) (x : Nat) :
    cell (h ++ [o]) x = if x = h.length then o else cell h x := by
  unfold cell
  by_cases hx : x = h.length
  · subst hx; simp
  · rw [if_neg hx]
    by_cases hlt : x < h.length
    · rw [List.getElem?_append_left hlt]
    · rw [List.getElem?_eq_none (by simp; omega), List.getElem?_eq_none (by omega)]

theorem cell_ge {h : Heap} {x : Nat} (hx : h.length ≤ x) : cell h x = none := by
  unfold cell
  rw [List.getElem?_eq_none hx]; rfl

theorem refs_append (h : Heap) (o : Option Cell) : refs (h ++ [o]) = refs h ++ owned o := by
  simp [refs_eq]

theorem alive_append (h : Heap) (c : Cell) : alive (h ++ [some c]) = alive h + 1 := by
  simp [alive]

theorem Acc.make {h : Heap} {hs : List Nat} (H : Acc h hs) :
    Acc (makeShared h).1 ((makeShared h).2 :: hs) := by
  intro a
  simp only [makeShared, cell_append, refs_append, owned, List.append_nil, List.count_cons]
  have := H a
  by_cases ha : a = h.length
  · subst ha
    rw [cell_ge (le_refl _)] at this
    simp only [owners] at this
    simp only [if_true, owners, beq_self_eq_true]
    omega
  · rw [if_neg ha, this, if_neg (by simpa using fun h => ha h.symm)]
    omega

/-- The other objects and all owning pointers stay as they are. -/
theorem Acc.retain {h : Heap} {hs : List Nat} (H : Acc h hs) {a : Nat} {c : Cell}
    (e : cell h a = some c) :
    ∃ h', RefCount.retain h a = some h' ∧ Acc h' (a :: hs) ∧ h'.length = h.length ∧
      alive h' = alive h ∧
      ∀ x, cell h' x = if x = a then some { c with count := c.count + 1 } else cell h x := by
  refine ⟨h.set a (some { c with count := c.count + 1 }), ?_, ?_, by simp, ?_, cell_set e _⟩
  · simp only [RefCount.retain, e, Option.bind_eq_bind, Option.bind_some]
  · intro x
    rw [cell_set e]
    have h1 := count_refs_set h a (some c) (some { c with count := c.count + 1 }) x (cell_lt e)
    have h2 := H x
    simp only [owned] at h1
    rw [List.count_cons]
    by_cases hx : x = a
    · subst hx
      rw [e] at h2
      simp only [owners] at h2
      simp only [if_true, owners, beq_self_eq_true]
      omega
    · rw [if_neg hx, if_neg (by simpa using fun h => hx h.symm)]
      omega
  · have := alive_set h a (some c) (some { c with count := c.count + 1 }) (cell_lt e)
    simpa using this

theorem Acc.store {h : Heap} {hs : List Nat} {a b : Nat} (H : Acc h (b :: hs)) {c : Cell}
    (e : cell h a = some c) :
    ∃ h', RefCount.store h a b = some h' ∧ Acc h' hs ∧ h'.length = h.length ∧ alive h' = alive h ∧
      ∀ x, cell h' x = if x = a then some { c with strong := b :: c.strong } else cell h x := by
  refine ⟨h.set a (some { c with strong := b :: c.strong }), ?_, ?_, by simp, ?_, cell_set e _⟩
  · simp only [RefCount.store, e, Option.bind_eq_bind, Option.bind_some]
  · intro x
    rw [cell_set e]
    have h1 := count_refs_set h a (some c) (some { c with strong := b :: c.strong }) x (cell_lt e)
    have h2 := H x
    simp only [owned, List.count_cons] at h1 h2
    by_cases hx : x = a
    · subst hx
      rw [e] at h2
      simp only [owners] at h2
      simp only [if_true, owners]
      omega
    · rw [if_neg hx]
      omega
  · have := alive_set h a (some c) (some { c with strong := b :: c.strong }) (cell_lt e)
    simpa using this

/-- What an object owns. -/
def strongAt (h : Heap) (a : Nat) : List Nat := owned (cell h a)

theorem mem_refs' {h : Heap} {x : Nat} : x ∈ refs h ↔ ∃ a, x ∈ strongAt h a := by
  rw [mem_refs]
  constructor
  · rintro ⟨a, c, e, hx⟩; exact ⟨a, by simpa [strongAt, e, owned] using hx⟩
  · rintro ⟨a, hx⟩
    unfold strongAt at hx
    cases e : cell h a with
    | none => simp [e, owned] at hx
    | some c => exact ⟨a, c, e, by simpa [e, owned] using hx⟩

theorem Acc.assign {h : Heap} {hs : List Nat} (H : Acc h hs) {a b : Nat} {ca cb : Cell}
    (ea : cell h a = some ca) (eb : cell h b = some cb) :
    ∃ h', RefCount.assign h a b = some h' ∧ Acc h' hs ∧ h'.length = h.length ∧ alive h' = alive h ∧
      (∀ x, (cell h' x).isSome = (cell h x).isSome) ∧
      ∀ x, strongAt h' x = if x = a then b :: strongAt h a else strongAt h x := by
  obtain ⟨h1, e1, H1, l1, al1, c1⟩ := H.retain eb
  have ea1 : ∃ c, cell h1 a = some c ∧ c.strong = ca.strong := by
    rw [c1]
    by_cases hx : a = b
    · subst hx; rw [if_pos rfl]; rw [ea] at eb; cases eb; exact ⟨_, rfl, rfl⟩
    · rw [if_neg hx]; exact ⟨_, ea, rfl⟩
  obtain ⟨c, ec, hc⟩ := ea1
  obtain ⟨h2, e2, H2, l2, al2, c2⟩ := H1.store ec
  refine ⟨h2, ?_, H2, l2.trans l1, al2.trans al1, ?_, ?_⟩
  · simp only [RefCount.assign, e1, e2, Option.bind_eq_bind, Option.bind_some]
  · intro x
    rw [c2, c1]
    by_cases hx : x = a
    · subst hx; simp [ea]
    · rw [if_neg hx]
      by_cases hy : x = b
      · subst hy; simp [eb]
      · simp [hy]
  · intro x
    unfold strongAt
    rw [c2, c1]
    by_cases hx : x = a
    · subst hx; simp [owned, ea, hc]
    · rw [if_neg hx, if_neg hx]
      by_cases hy : x = b
      · subst hy; simp [owned, eb]
      · simp [hy]

/-- `store` in terms of `strongAt`. -/
theorem Acc.store' {h : Heap} {hs : List Nat} {a b : Nat} (H : Acc h (b :: hs))
    (e : (cell h a).isSome) :
    ∃ h', RefCount.store h a b = some h' ∧ Acc h' hs ∧ h'.length = h.length ∧ alive h' = alive h ∧
      (∀ x, (cell h' x).isSome = (cell h x).isSome) ∧
      ∀ x, strongAt h' x = if x = a then b :: strongAt h a else strongAt h x := by
  obtain ⟨c, ec⟩ := Option.isSome_iff_exists.1 e
  obtain ⟨h', e1, H1, l1, al1, c1⟩ := H.store ec
  refine ⟨h', e1, H1, l1, al1, ?_, ?_⟩
  · intro x
    rw [c1]
    by_cases hx : x = a
    · subst hx; simp [ec]
    · simp [hx]
  · intro x
    unfold strongAt
    rw [c1]
    by_cases hx : x = a
    · subst hx; simp [owned, ec]
    · simp [hx]

theorem Acc.retain' {h : Heap} {hs : List Nat} (H : Acc h hs) {a : Nat} (e : (cell h a).isSome) :
    ∃ h', RefCount.retain h a = some h' ∧ Acc h' (a :: hs) ∧ h'.length = h.length ∧
      alive h' = alive h ∧ (∀ x, (cell h' x).isSome = (cell h x).isSome) ∧
      ∀ x, strongAt h' x = strongAt h x := by
  obtain ⟨c, ec⟩ := Option.isSome_iff_exists.1 e
  obtain ⟨h', e1, H1, l1, al1, c1⟩ := H.retain ec
  refine ⟨h', e1, H1, l1, al1, ?_, ?_⟩
  · intro x
    rw [c1]
    by_cases hx : x = a
    · subst hx; simp [ec]
    · simp [hx]
  · intro x
    unfold strongAt
    rw [c1]
    by_cases hx : x = a
    · subst hx; simp [owned, ec]
    · simp [hx]

/-! ### destruction -/

/-- The object has other owners: only its count changes. -/
theorem releaseLoop_keep {h : Heap} {hs : List Nat} {a : Nat} (H : Acc h (a :: hs))
    (hk : a ∈ refs h ∨ a ∈ hs) (fuel : Nat) (w : List Nat) :
    ∃ h', releaseLoop (fuel + 1) (a :: w) h = releaseLoop fuel w h' ∧ Acc h' hs ∧
      h'.length = h.length ∧ alive h' = alive h ∧ (∀ x, (cell h' x).isSome = (cell h x).isSome) ∧
      (∀ x, strongAt h' x = strongAt h x) ∧ (refs h').length = (refs h).length := by
  obtain ⟨c, e⟩ := H.exists (a := a) (by simp)
  have h2 : 2 ≤ c.count := by
    have := H a
    rw [e] at this
    simp only [owners, List.count_cons_self] at this
    rcases hk with hk | hk
    · have := List.count_pos_iff.2 hk; omega
    · have := List.count_pos_iff.2 hk; omega
  refine ⟨h.set a (some { c with count := c.count - 1 }), ?_, ?_, by simp, ?_, ?_, ?_, ?_⟩
  · simp only [releaseLoop, e, Option.bind_eq_bind, Option.bind_some]
    rw [if_neg (by omega)]
  · intro x
    rw [cell_set e]
    have h1 := count_refs_set h a (some c) (some { c with count := c.count - 1 }) x (cell_lt e)
    have h3 := H x
    simp only [owned, List.count_cons] at h1 h3
    by_cases hx : x = a
    · subst hx
      rw [e] at h3
      simp only [owners, beq_self_eq_true, if_true] at h3
      simp only [if_true, owners]
      omega
    · rw [if_neg (by simpa using fun h => hx h.symm)] at h3
      rw [if_neg hx]
      omega
  · have := alive_set h a (some c) (some { c with count := c.count - 1 }) (cell_lt e)
    simpa using this
  · intro x
    rw [cell_set e]
    by_cases hx : x = a
    · subst hx; simp [e]
    · simp [hx]
  · intro x
    unfold strongAt
    rw [cell_set e]
    by_cases hx : x = a
    · subst hx; simp [owned, e]
    · simp [hx]
  · have := length_refs_set h a (some c) (some { c with count := c.count - 1 }) (cell_lt e)
    simpa [owned] using this

/-- The last owner: the object is destroyed and its members are next. -/
theorem releaseLoop_last {h : Heap} {hs : List Nat} {a : Nat} (H : Acc h (a :: hs))
    (h1 : a ∉ refs h) (h2 : a ∉ hs) (fuel : Nat) (w : List Nat) :
    ∃ h', releaseLoop (fuel + 1) (a :: w) h = releaseLoop fuel (strongAt h a ++ w) h' ∧
      Acc h' (strongAt h a ++ hs) ∧ h'.length = h.length ∧ alive h' + 1 = alive h ∧
      (∀ x, cell h' x = if x = a then none else cell h x) ∧
      (refs h').length + (strongAt h a).length = (refs h).length := by
  obtain ⟨c, e⟩ := H.exists (a := a) (by simp)
  have hc : c.count = 1 := by
    have := H a
    rw [e] at this
    simp only [owners, List.count_cons_self, List.count_eq_zero.2 h1, List.count_eq_zero.2 h2] at this
    omega
  have hs : strongAt h a = c.strong := by simp [strongAt, e, owned]
  refine ⟨h.set a none, ?_, ?_, by simp, ?_, cell_set e none, ?_⟩
  · simp only [releaseLoop, e, Option.bind_eq_bind, Option.bind_some, hs]
    rw [if_pos (by omega)]
  · intro x
    rw [cell_set e, hs, List.count_append]
    have h3 := count_refs_set h a (some c) none x (cell_lt e)
    have h4 := H x
    simp only [owned, List.count_cons, List.count_nil] at h3 h4
    by_cases hx : x = a
    · subst hx
      simp only [if_true, owners]
      have := List.count_eq_zero.2 h1
      have := List.count_eq_zero.2 h2
      omega
    · rw [if_neg (by simpa using fun h => hx h.symm)] at h4
      rw [if_neg hx]
      omega
  · have := alive_set h a (some c) none (cell_lt e)
    simpa using this
  · have := length_refs_set h a (some c) none (cell_lt e)
    rw [hs]
    simpa [owned] using this

/-- Destruction of pointers always ends, and the counts stay right. -/
theorem releaseLoop_spec : ∀ (fuel : Nat) (w : List Nat) (h : Heap) (hs : List Nat), Acc h (w ++ hs) →
    w.length + (refs h).length ≤ fuel → ∃ h', releaseLoop fuel w h = some h' ∧ Acc h' hs := by
  intro fuel
  induction fuel with
  | zero =>
    intro w h hs H hf
    have : w = [] := List.eq_nil_of_length_eq_zero (by omega)
    subst this
    exact ⟨h, rfl, H⟩
  | succ fuel ih =>
    intro w h hs H hf
    cases w with
    | nil => exact ⟨h, rfl, H⟩
    | cons a w =>
      simp only [List.length_cons] at hf
      by_cases hk : a ∈ refs h ∨ a ∈ w ++ hs
      · obtain ⟨h', e, H', _, _, _, _, hl⟩ := releaseLoop_keep (hs := w ++ hs) H hk fuel w
        rw [e]
        exact ih w h' hs H' (by omega)
      · obtain ⟨h', e, H', _, _, _, hl⟩ := releaseLoop_last (hs := w ++ hs) H
          (fun h => hk (Or.inl h)) (fun h => hk (Or.inr h)) fuel w
        rw [e]
        exact ih _ h' hs (by rw [List.append_assoc]; exact H') (by rw [List.length_append]; omega)

/-- Objects that own each other are never destroyed. -/
theorem releaseLoop_leak (S : Nat → Prop) : ∀ (fuel : Nat) (w : List Nat) (h h' : Heap) (hs : List Nat),
    Acc h (w ++ hs) → (∀ a, S a → ∃ b, S b ∧ a ∈ strongAt h b) → releaseLoop fuel w h = some h' →
    ∀ a, S a → (cell h' a).isSome ∧ strongAt h' a = strongAt h a := by
  intro fuel
  induction fuel with
  | zero =>
    intro w h h' hs H hS e a ha
    cases w with
    | nil =>
      simp only [releaseLoop, Option.some.injEq] at e
      subst e
      obtain ⟨b, _, hb⟩ := hS a ha
      obtain ⟨c, hc⟩ := H.exists_of_refs (mem_refs'.2 ⟨b, hb⟩)
      exact ⟨by simp [hc], rfl⟩
    | cons => simp [releaseLoop] at e
  | succ fuel ih =>
    intro w h h' hs H hS e a ha
    cases w with
    | nil =>
      simp only [releaseLoop, Option.some.injEq] at e
      subst e
      obtain ⟨b, _, hb⟩ := hS a ha
      obtain ⟨c, hc⟩ := H.exists_of_refs (mem_refs'.2 ⟨b, hb⟩)
      exact ⟨by simp [hc], rfl⟩
    | cons x w =>
      by_cases hk : x ∈ refs h ∨ x ∈ w ++ hs
      · obtain ⟨h1, e1, H1, _, _, _, s1, _⟩ := releaseLoop_keep (hs := w ++ hs) H hk fuel w
        rw [e1] at e
        have := ih w h1 h' hs H1 (fun a ha => by
          obtain ⟨b, hb, hab⟩ := hS a ha
          exact ⟨b, hb, by rw [s1]; exact hab⟩) e a ha
        rw [s1] at this
        exact this
      · have hxS : ¬ S x := by
          intro hx
          obtain ⟨b, _, hb⟩ := hS x hx
          exact hk (Or.inl (mem_refs'.2 ⟨b, hb⟩))
        obtain ⟨h1, e1, H1, _, _, c1, _⟩ := releaseLoop_last (hs := w ++ hs) H
          (fun h => hk (Or.inl h)) (fun h => hk (Or.inr h)) fuel w
        have s1 : ∀ y, S y → strongAt h1 y = strongAt h y := by
          intro y hy
          unfold strongAt
          rw [c1, if_neg (by rintro rfl; exact hxS hy)]
        rw [e1] at e
        have := ih _ h1 h' hs (by rw [List.append_assoc]; exact H1) (fun a ha => by
          obtain ⟨b, hb, hab⟩ := hS a ha
          exact ⟨b, hb, by rw [s1 b hb]; exact hab⟩) e a ha
        rw [s1 a ha] at this
        exact this

theorem release_keep {h : Heap} {hs : List Nat} {a : Nat} (H : Acc h (a :: hs))
    (hk : a ∈ refs h ∨ a ∈ hs) :
    ∃ h', release h a = some h' ∧ Acc h' hs ∧
      h'.length = h.length ∧ alive h' = alive h ∧ (∀ x, (cell h' x).isSome = (cell h x).isSome) ∧
      (∀ x, strongAt h' x = strongAt h x) := by
  obtain ⟨h', e, H', l, al, ic, s, _⟩ := releaseLoop_keep H hk (refs h).length []
  refine ⟨h', ?_, H', l, al, ic, s⟩
  unfold release
  rw [e]
  cases (refs h).length <;> rfl

end Verif.RefCount
