import Verif.Lemmas.UnionFindLabels

/-
Property C105: `ffcl::datastruct::UnionFind` built from an array of labels.
-/

namespace Verif.UF

theorem withLabels_any {n : Nat} {labels : List Nat} (hl : labels.length = n)
    (h : ∀ (i v : Nat), labels[i]? = some v → v < n) : Any n (withLabels n labels) :=
  ⟨⟨hl, h⟩, by simp [withLabels]⟩

theorem eqvGen_congr {R S : Nat → Nat → Prop} (h : ∀ a b, R a b → Relation.EqvGen S a b) {a b : Nat}
    (H : Relation.EqvGen R a b) : Relation.EqvGen S a b := by
  induction H with
  | rel x y e => exact h x y e
  | refl x => exact .refl x
  | symm x y _ ih => exact ih.symm
  | trans x y z _ _ ih1 ih2 => exact ih1.trans _ _ _ ih2

/-- A history from any state: the sets are those of the start joined by the merged pairs. -/
theorem run_any {n : Nat} : ∀ (ops : List Op) (s : State), Any n s → (∀ op ∈ ops, op.Valid n) →
    ∃ s', run s ops = some s' ∧ Any n s' ∧
      ∀ a b, Same s'.parents a b ↔
        Relation.EqvGen (fun a b => s.parents[a]? = some b ∨ Merged ops a b) a b := by
  intro ops
  induction ops with
  | nil =>
    intro s h _
    refine ⟨s, rfl, h, fun a b => ?_⟩
    constructor
    · exact eqvGen_congr fun a b h => .rel _ _ (Or.inl h)
    · exact eqvGen_congr fun a b h => .rel _ _ (h.resolve_right (by simp [Merged]))
  | cons op ops ih =>
    intro s h hv
    have hv' : ∀ o ∈ ops, o.Valid n := fun o ho => hv o (List.mem_cons_of_mem _ ho)
    have hop := hv op (List.mem_cons_self ..)
    -- the sets after the first call
    have key : ∃ s1, step s op = some s1 ∧ Any n s1 ∧ (∀ a b, Same s1.parents a b ↔
        Relation.EqvGen (fun a b => Same s.parents a b ∨ op = Op.merge a b) a b) := by
      cases op with
      | find i =>
        obtain ⟨s1, r, e, A, _, _, _, q, _, _⟩ := find_any h hop
        refine ⟨s1, by simp [step, e], A, fun a b => ?_⟩
        rw [q]
        constructor
        · exact fun h => .rel _ _ (Or.inl h)
        · exact fun h => same_idem _ _ (eqvGen_congr (fun a b h => .rel _ _ (h.resolve_right (by simp))) h)
      | merge i j =>
        obtain ⟨s1, r, e, A, _, _, _, q⟩ := merge_any h hop.1 hop.2
        refine ⟨s1, by simp [step, e], A, fun a b => ?_⟩
        rw [q]
        constructor
        · refine eqvGen_congr fun a b h => .rel _ _ (h.imp id ?_)
          rintro ⟨rfl, rfl⟩; rfl
        · refine eqvGen_congr fun a b h => .rel _ _ (h.imp id ?_)
          intro h
          injection h with h1 h2
          exact ⟨h1.symm, h2.symm⟩
    obtain ⟨s1, e1, A1, q1⟩ := key
    obtain ⟨s', e, A, q⟩ := ih s1 A1 hv'
    refine ⟨s', by simp [run, e1, e], A, fun a b => ?_⟩
    rw [q]
    constructor
    · refine eqvGen_congr fun a b h => ?_
      rcases h with h | h
      · refine eqvGen_congr ?_ ((q1 a b).1 (.rel _ _ h))
        intro x y hxy
        rcases hxy with hxy | hxy
        · exact eqvGen_congr (fun u v h => .rel _ _ (Or.inl h)) hxy
        · exact .rel _ _ (Or.inr (by simp [Merged, hxy]))
      · exact .rel _ _ (Or.inr (List.mem_cons_of_mem _ h))
    · have lift : ∀ a b, Same s1.parents a b →
          Relation.EqvGen (fun a b => s1.parents[a]? = some b ∨ Merged ops a b) a b :=
        fun a b h => eqvGen_congr (fun u v h => .rel _ _ (Or.inl h)) h
      refine eqvGen_congr fun a b h => ?_
      rcases h with h | h
      · exact lift a b ((q1 a b).2 (.rel _ _ (Or.inl (.rel _ _ h))))
      · rcases List.mem_cons.1 h with h | h
        · exact lift a b ((q1 a b).2 (.rel _ _ (Or.inr h.symm)))
        · exact .rel _ _ (Or.inr h)

/-- **C105.** For any array of labels that are sample indices, also one whose labels form cycles, and any
history of valid calls: no access is out of range, every loop ends, and two `find` calls agree exactly
when the two samples are connected through labels and merged pairs. -/
theorem C105_labels_find (n : Nat) (labels : List Nat) (hl : labels.length = n)
    (hr : ∀ (i v : Nat), labels[i]? = some v → v < n) (ops : List Op) (hv : ∀ op ∈ ops, op.Valid n) :
    ∃ s, run (withLabels n labels) ops = some s ∧
      ∀ a b, a < n → b < n → ∃ s1 ra s2 rb,
        find s a = some (s1, ra) ∧ find s1 b = some (s2, rb) ∧ (ra = rb ↔ Linked labels ops a b) := by
  obtain ⟨s, e, A, q⟩ := run_any ops _ (withLabels_any hl hr) hv
  refine ⟨s, e, fun a b ha hb => ?_⟩
  obtain ⟨s1, ra, e1, A1, _, _, f1, q1, w1, _⟩ := find_any A ha
  obtain ⟨s2, rb, e2, A2, _, _, f2, q2, w2, x2⟩ := find_any A1 hb
  refine ⟨s1, ra, s2, rb, e1, e2, ?_⟩
  have wb : Same s.parents b rb := (q1 _ _).1 w2
  have q' : Linked labels ops a b ↔ Same s.parents a b := (q a b).symm
  rw [q']
  constructor
  · rintro rfl
    exact Relation.EqvGen.trans _ _ _ w1 wb.symm
  · intro h
    refine same_root (ps := s2.parents) ?_ (x2 _ f1) f2
    rw [q2, q1]
    exact Relation.EqvGen.trans _ _ _ w1.symm (Relation.EqvGen.trans _ _ _ h wb)

/-- **C105 (representative).** The value of `find` and of `merge` is a member of the set, and is from then
on the answer for every member of that set, whatever the order of the questions. -/
theorem C105_representative_stable (n : Nat) (labels : List Nat) (hl : labels.length = n)
    (hr : ∀ (i v : Nat), labels[i]? = some v → v < n) (ops : List Op) (hv : ∀ op ∈ ops, op.Valid n)
    (a b : Nat) (ha : a < n) (hb : b < n) :
    ∃ s s1 ra, run (withLabels n labels) ops = some s ∧ find s a = some (s1, ra) ∧ ra < n ∧
      Linked labels ops a ra ∧
      (∀ (finds : List Nat), (∀ x ∈ finds, x < n) → ∃ s2, run s1 (finds.map Op.find) = some s2 ∧
        ∀ x, x < n → Linked labels ops a x → (find s2 x).map Prod.snd = some ra) ∧
      ∃ s1' c, merge s a b = some (s1', c) ∧ c < n ∧ Linked labels (ops ++ [Op.merge a b]) a c ∧
        ∀ (finds : List Nat), (∀ x ∈ finds, x < n) → ∃ s2, run s1' (finds.map Op.find) = some s2 ∧
          ∀ x, x < n → Linked labels (ops ++ [Op.merge a b]) a x → (find s2 x).map Prod.snd = some c := by
  obtain ⟨s, e, A, q⟩ := run_any ops _ (withLabels_any hl hr) hv
  -- a root stays the answer through any number of finds
  have stay : ∀ (finds : List Nat) (t : State) (r : Nat), Any n t → (∀ x ∈ finds, x < n) →
      t.parents[r]? = some r → ∃ t', run t (finds.map Op.find) = some t' ∧
        ∀ x, x < n → Same t.parents x r → (find t' x).map Prod.snd = some r := by
    intro finds
    induction finds with
    | nil =>
      intro t r At _ hroot
      refine ⟨t, rfl, fun x hx hs => ?_⟩
      obtain ⟨t1, rx, e1, _, _, _, f1, q1, w1, x1⟩ := find_any At hx
      rw [e1]
      have : rx = r := same_root (ps := t1.parents)
        ((q1 _ _).2 (Relation.EqvGen.trans _ _ _ w1.symm hs)) f1 (x1 _ hroot)
      simp [this]
    | cons y finds ih =>
      intro t r At hf hroot
      obtain ⟨t1, ry, e1, A1, _, _, _, q1, _, x1⟩ := find_any At (hf y (List.mem_cons_self ..))
      obtain ⟨t', e', h'⟩ := ih t1 r A1 (fun x hx => hf x (List.mem_cons_of_mem _ hx)) (x1 _ hroot)
      exact ⟨t', by simp [run, step, e1, e'], fun x hx hs => h' x hx ((q1 _ _).2 hs)⟩
  obtain ⟨s1, ra, e1, A1, _, l1, f1, q1, w1, _⟩ := find_any A ha
  obtain ⟨s1', c, em, Am, lm, fm, wm, qm⟩ := merge_any A ha hb
  -- the sets after the merge
  have qm' : ∀ x y, Same s1'.parents x y ↔ Linked labels (ops ++ [Op.merge a b]) x y := by
    intro x y
    obtain ⟨s', e', A', q'⟩ := run_any (ops ++ [Op.merge a b]) _ (withLabels_any hl hr) (by
      intro op ho
      rcases List.mem_append.1 ho with ho | ho
      · exact hv op ho
      · simp only [List.mem_singleton] at ho; subst ho; exact ⟨ha, hb⟩)
    have hs : run (withLabels n labels) (ops ++ [Op.merge a b]) = some s1' := by
      have : ∀ (ops : List Op) (t : State), run t ops = some s → run t (ops ++ [Op.merge a b]) = some s1' := by
        intro ops
        induction ops with
        | nil => intro t ht; simp only [run, Option.some.injEq] at ht; subst ht; simp [run, step, em]
        | cons op ops ih =>
          intro t ht
          simp only [run, List.cons_append, Option.bind_eq_bind] at ht ⊢
          cases hst : step t op with
          | none => simp [hst] at ht
          | some u => simp only [hst, Option.bind_some] at ht ⊢; exact ih u ht
      exact this ops _ e
    rw [hs] at e'
    simp only [Option.some.injEq] at e'
    subst e'
    exact q' x y
  refine ⟨s, s1, ra, e, e1, l1, (q _ _).1 w1, ?_, s1', c, em, lm, (qm' _ _).1 wm, ?_⟩
  · intro finds hf
    obtain ⟨t', e', h'⟩ := stay finds s1 ra A1 hf f1
    refine ⟨t', e', fun x hx hlk => h' x hx ?_⟩
    rw [q1]
    exact Relation.EqvGen.trans _ _ _ ((q _ _).2 hlk).symm w1
  · intro finds hf
    obtain ⟨t', e', h'⟩ := stay finds s1' c Am hf fm
    exact ⟨t', e', fun x hx hlk => h' x hx (Relation.EqvGen.trans _ _ _ ((qm' _ _).2 hlk).symm wm)⟩

/-- **C105 (steps).** The loop of `find` makes fewer than `2 n` iterations on any labels (the fuel counts
evaluations of the loop condition). -/
theorem C105_find_steps (n : Nat) (labels : List Nat) (hl : labels.length = n)
    (hr : ∀ (i v : Nat), labels[i]? = some v → v < n) (a : Nat) (ha : a < n) :
    ∃ ps r, findLoop (2 * n) labels a = some (ps, r) := by
  obtain ⟨tail, y, ys, h, hlen⟩ := exists_lasso (ps := labels) ⟨hl, hr⟩ ha
  obtain ⟨ps, r, e, _⟩ := findLoop_lasso (n := n) (2 * n) labels a tail y ys ⟨hl, hr⟩ h (by omega)
  exact ⟨ps, r, e⟩

/-- **C105 (counterexamples).** What a union-find built from labels loses against a fresh one.  On a cycle
the representative depends on the question asked first (contrast C02).  A chain of labels makes `find` walk
the whole chain (contrast the logarithmic bound C03).  A label that is no sample index is an access out of
range. -/
theorem C105_contrast_counterexample :
    (find (withLabels 3 [1, 2, 0]) 0).map Prod.snd = some 2 ∧
      (find (withLabels 3 [1, 2, 0]) 1).map Prod.snd = some 0 ∧
    findLoop 7 (withLabels 8 [0, 0, 1, 2, 3, 4, 5, 6]).parents 7 = none ∧
      (find (withLabels 8 [0, 0, 1, 2, 3, 4, 5, 6]) 7).map Prod.snd = some 0 ∧
    find (withLabels 2 [0, 2]) 1 = none := by
  refine ⟨by decide, by decide, by decide, by decide, by decide⟩

/-! Non-vacuity: labels with a cycle of three, a tail into it and a separate pair, then a merge. -/

example : (∀ (i v : Nat), ([1, 2, 0, 2, 5, 5] : List Nat)[i]? = some v → v < 6) := by
  intro i v h
  have := List.mem_of_getElem? h
  simp at this
  omega

example : (run (withLabels 6 [1, 2, 0, 2, 5, 5]) [.find 3, .merge 4 0]).map
    (fun s => [0, 1, 2, 3, 4, 5].map fun x => (find s x).map Prod.snd) =
    some [some 5, some 5, some 5, some 5, some 5, some 5] := by decide

example : [0, 1, 2, 3, 4, 5].map (fun x => (find (withLabels 6 [1, 2, 0, 2, 5, 5]) x).map Prod.snd) =
    [some 2, some 0, some 1, some 1, some 5, some 5] := by decide

end Verif.UF
