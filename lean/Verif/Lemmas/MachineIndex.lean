import Verif.Model.MachineIndex
import Verif.Props.CentreMachine
import Verif.Lemmas.UnionFind
import Verif.Lemmas.Levenshtein

/-
Lemmas on `std::iota`, the union-find and the edit distance in machine arithmetic: they refine the
models with natural numbers.
-/

namespace Verif.MachineInt

open Verif.Bounds

variable {t : IntType}

theorem convert_range (hb : 1 ≤ t.bits) (z : ℤ) : t.min ≤ t.convert z ∧ t.convert z ≤ t.max := by
  obtain ⟨m, hm⟩ : ∃ m, t.bits = m + 1 := ⟨t.bits - 1, by omega⟩
  have hp : (1 : ℤ) ≤ 2 ^ m := one_le_pow₀ (by norm_num)
  have e2 : (2 : ℤ) ^ (m + 1) = 2 * 2 ^ m := by ring
  have e : ((2 ^ (m + 1) : Nat) : ℤ) = 2 * 2 ^ m := by push_cast; ring
  unfold IntType.convert IntType.min IntType.max
  by_cases hs : t.signed = true
  · simp only [hs, if_true, hm, Nat.add_sub_cancel]
    have h1 := Int.le_bmod (x := z) (m := 2 ^ (m + 1)) (by positivity)
    have h2 := Int.bmod_lt (x := z) (m := 2 ^ (m + 1)) (by positivity)
    rw [e] at h1 h2
    constructor <;> omega
  · simp only [hs, hm]
    have h1 := Int.emod_nonneg z (b := 2 ^ (m + 1)) (by positivity)
    have h2 := Int.emod_lt_of_pos z (b := 2 ^ (m + 1)) (by positivity)
    simp only [Bool.false_eq_true, if_false]
    constructor <;> omega

theorem promoted_min_le (t : IntType) (hb : 1 ≤ t.bits) (hs : t.promoted.signed = true) : t.promoted.min ≤ t.min := by
  rw [min_signed hs]
  by_cases h : t.signed = true
  · rw [min_signed h]
    have := max_le_promoted t
    omega
  · have : t.min = 0 := by simp [IntType.min, h]
    have := max_nonneg t.promoted
    omega

/-- The increment of a value of the type. -/
theorem incr_eq (hb : 1 ≤ t.bits) {v : ℤ} (h0 : t.min ≤ v) (h : v ≤ t.max) :
    t.incr v = if t.promoted.signed = true ∧ t.promoted.max < v + 1 then none
      else some (t.convert (v + 1)) := by
  unfold IntType.incr
  by_cases hs : t.promoted.signed = true
  · rw [result_signed hs]
    have := promoted_min_le t hb hs
    by_cases hv : t.promoted.max < v + 1
    · rw [if_neg (by omega), if_pos ⟨hs, hv⟩]; rfl
    · rw [if_pos (by omega), if_neg (by omega)]; rfl
  · rw [if_neg (by simp [hs])]
    have hp : t.promoted = t := by
      unfold IntType.promoted at hs ⊢
      split
      · rename_i hh; simp [hh] at hs
      · rfl
    rw [hp] at hs ⊢
    have e : t.signed = false := by simpa using hs
    simp [IntType.result, IntType.convert, e]

/-- `std::iota` fills in consecutive numbers exactly when they fit and the last increment is defined. -/
theorem iota_iff (hb : 1 ≤ t.bits) : ∀ (n : Nat) (v : ℤ), t.min ≤ v → v ≤ t.max →
    (iota t n v = some ((List.range n).map (fun i : Nat => v + (i : ℤ))) ↔
      n = 0 ∨ (v + n ≤ t.max + 1 ∧ (t.promoted.signed = true → v + n ≤ t.promoted.max)))
  | 0, v, _, _ => by simp [iota]
  | n + 1, v, h0, h => by
    have hr : (List.range (n + 1)).map (fun i : Nat => v + (i : ℤ)) =
        v :: (List.range n).map (fun i : Nat => v + 1 + (i : ℤ)) := by
      rw [List.range_succ_eq_map]
      simp only [List.map_cons, List.map_map, Nat.cast_zero, add_zero, List.cons.injEq, true_and]
      apply List.map_congr_left
      intro a _
      simp only [Function.comp_apply, Nat.succ_eq_add_one, Nat.cast_add, Nat.cast_one]
      omega
    rw [hr]
    simp only [iota, incr_eq hb h0 h]
    split
    · rename_i hh
      simp only [Option.bind_eq_bind, Option.bind_none, false_iff, reduceCtorEq]
      rintro (h' | ⟨_, h'⟩)
      · omega
      · have := h' hh.1
        push_cast at this
        omega
    · rename_i hh
      have hh : ¬ (t.promoted.signed = true ∧ t.promoted.max < v + 1) := hh
      simp only [Option.bind_eq_bind, Option.bind_some, Option.bind_eq_some_iff, Option.some.injEq,
        List.cons.injEq, true_and]
      by_cases hv : v + 1 ≤ t.max
      · have hc : t.convert (v + 1) = v + 1 := convert_of_range hb (by omega) hv
        have ih := iota_iff hb n (v + 1) (by omega) hv
        rw [hc]
        constructor
        · rintro ⟨a, ha, rfl⟩
          right
          rcases ih.1 ha with rfl | ⟨h1, h2⟩
          · refine ⟨by push_cast; omega, fun hs => ?_⟩
            have := mt (fun h' => (⟨hs, h'⟩ : _ ∧ _)) hh
            push_cast; omega
          · exact ⟨by push_cast; omega, fun hs => by have := h2 hs; push_cast; omega⟩
        · rintro (h' | ⟨h1, h2⟩)
          · omega
          · refine ⟨_, ih.2 ?_, rfl⟩
            right
            exact ⟨by push_cast at h1; omega, fun hs => by have := h2 hs; push_cast at this; omega⟩
      · constructor
        · rintro ⟨a, ha, rfl⟩
          right
          cases n with
          | zero =>
            refine ⟨by push_cast; omega, fun hs => ?_⟩
            have := mt (fun h' => (⟨hs, h'⟩ : _ ∧ _)) hh
            push_cast; omega
          | succ n =>
            exfalso
            have hr2 : (List.range (n + 1)).map (fun i : Nat => v + 1 + (i : ℤ)) =
                (v + 1) :: (List.range n).map (fun i : Nat => v + 1 + ((i : ℤ) + 1)) := by
              rw [List.range_succ_eq_map]
              simp
            rw [hr2] at ha
            simp only [iota, Option.bind_eq_bind, Option.bind_eq_some_iff, Option.some.injEq,
              List.cons.injEq] at ha
            obtain ⟨_, _, _, _, hc, _⟩ := ha
            have := (convert_range hb (v + 1)).2
            omega
        · rintro (h' | ⟨h1, h2⟩)
          · omega
          · have hn : n = 0 := by push_cast at h1; omega
            subst hn
            exact ⟨[], rfl, rfl⟩

/-- For signed types that are not promoted `std::iota` is undefined when it would go beyond the range. -/
theorem iota_none (hb : 1 ≤ t.bits) (hp : t.promoted = t) (hs : t.signed = true) :
    ∀ (n : Nat) (v : ℤ), t.min ≤ v → v ≤ t.max → 1 ≤ n → t.max < v + n → iota t n v = none
  | 0, _, _, _, h, _ => by omega
  | n + 1, v, h0, h1, _, h => by
    rw [iota, incr_eq hb h0 h1, hp]
    by_cases hv : v + 1 ≤ t.max
    · rw [if_neg (by omega), convert_of_range hb (by omega) hv]
      simp only [Option.bind_eq_bind, Option.bind_some]
      rw [iota_none hb hp hs n (v + 1) (by omega) hv (by push_cast at h; omega) (by push_cast at h; omega)]
      rfl
    · rw [if_pos ⟨hs, by omega⟩]; rfl

/-! ### union-find -/

/-- A list of naturals as integers. -/
def castL (l : List Nat) : List ℤ := l.map (fun i : Nat => (i : ℤ))

theorem castL_length (l : List Nat) : (castL l).length = l.length := by simp [castL]

theorem readAt_cast (l : List Nat) (i : Nat) : readAt (castL l) (i : ℤ) = (l[i]?).map (fun i : Nat => (i : ℤ)) := by
  simp [readAt, castL]

theorem writeAt_cast (l : List Nat) (i v : Nat) : writeAt (castL l) (i : ℤ) (v : ℤ) = castL (l.set i v) := by
  simp [writeAt, castL, List.map_set]

/-- The state with machine integers of a state with naturals. -/
def castS (s : UF.State) : UFState := ⟨castL s.parents, castL s.ranks⟩

theorem findLoop_cast : ∀ (fuel : Nat) (ps : List Nat) (i : Nat),
    ufFindLoop fuel (castL ps) (i : ℤ) =
      (UF.findLoop fuel ps i).map (fun p => (castL p.1, (p.2 : ℤ)))
  | 0, _, _ => rfl
  | fuel + 1, ps, i => by
    simp only [ufFindLoop, UF.findLoop, readAt_cast]
    cases h : ps[i]? with
    | none => rfl
    | some p =>
      simp only [Option.map_some, Option.bind_eq_bind, Option.bind_some, Nat.cast_inj]
      by_cases hp : i = p
      · simp [hp]
      · rw [if_neg hp, if_neg hp, readAt_cast]
        cases h' : ps[p]? with
        | none => rfl
        | some g =>
          simp only [Option.map_some, Option.bind_some]
          rw [writeAt_cast, findLoop_cast fuel]

theorem find_cast (s : UF.State) (i : Nat) :
    ufFind (castS s) (i : ℤ) = (UF.find s i).map (fun p => (castS p.1, (p.2 : ℤ))) := by
  unfold ufFind UF.find
  simp only [castS, castL_length, findLoop_cast]
  cases UF.findLoop (2 * s.parents.length + 1) s.parents i <;> rfl

theorem merge_cast (hb : 1 ≤ t.bits) {n : Nat} (hn : (n : ℤ) ≤ t.max + 1)
    (hp : t.promoted.signed = true → (n : ℤ) ≤ t.promoted.max) {s : UF.State} {rep : Nat → Nat}
    (h : UF.SInv n s rep) {i j : Nat} (hi : i < n) (hj : j < n) :
    ufMerge t (castS s) (i : ℤ) (j : ℤ) = (UF.merge s i j).map (fun p => (castS p.1, (p.2 : ℤ))) := by
  obtain ⟨s1, e1, inv1, _⟩ := UF.find_spec h hi
  obtain ⟨s2, e2, inv2, _⟩ := UF.find_spec inv1 hj
  have l1 := inv2.rep_lt hi
  have l2 := inv2.rep_lt hj
  have p1 := (inv2.root i hi).2
  have p2 := (inv2.root j hj).2
  obtain ⟨a, ha⟩ := inv2.exists_rank l1
  obtain ⟨b, hb'⟩ := inv2.exists_rank l2
  have han := inv2.rank_root_lt hi ha
  unfold ufMerge UF.merge
  simp only [find_cast, e1, e2, Option.map_some, Option.bind_eq_bind, Option.bind_some, Nat.cast_inj]
  by_cases heq : rep i = rep j
  · simp [heq]
  · rw [if_neg heq, if_neg heq]
    have q1 : readAt (castS s2).ranks (rep i : ℤ) = some (a : ℤ) := by
      simp only [castS, readAt_cast, ha, Option.map_some]
    have q2 : readAt (castS s2).ranks (rep j : ℤ) = some (b : ℤ) := by
      simp only [castS, readAt_cast, hb', Option.map_some]
    have q3 : readAt (castS s2).parents (rep i : ℤ) = some (rep i : ℤ) := by
      simp only [castS, readAt_cast, p1, Option.map_some]
    rw [q1, q2, ha, hb']
    simp only [Option.bind_some, Nat.cast_inj, gt_iff_lt, Nat.cast_lt]
    by_cases hab : a = b
    · subst hab
      -- both ranks stand for at least `2 ^ a` samples of different classes
      have c1 := inv2.card (rep i) a p1 ha
      have c2 := inv2.card (rep j) a p2 hb'
      have hdis : Disjoint ((Finset.range n).filter (fun k => rep k = rep i))
          ((Finset.range n).filter (fun k => rep k = rep j)) := by
        rw [Finset.disjoint_filter]
        intro k _ h1 h2
        exact heq (h1.symm.trans h2)
      have hsum := Finset.card_union_of_disjoint hdis
      have hle : (((Finset.range n).filter (fun k => rep k = rep i)) ∪
          ((Finset.range n).filter (fun k => rep k = rep j))).card ≤ n := by
        refine (Finset.card_le_card ?_).trans (Finset.card_range n).le
        intro k hk
        simp only [Finset.mem_union, Finset.mem_filter] at hk
        rcases hk with hk | hk <;> exact hk.1
      have hlt : a < 2 ^ a := Nat.lt_two_pow_self
      have hfin : a + 2 ≤ n := by omega
      have hmin := min_nonpos t
      have hinc : t.incr (a : ℤ) = some ((a + 1 : Nat) : ℤ) := by
        rw [incr_eq hb (by omega) (by omega), if_neg, convert_of_range hb (by omega) (by omega)]
        · push_cast; rfl
        · rintro ⟨hs, h'⟩
          have := hp hs
          omega
      simp only [if_true, q3, hinc, p1, Option.bind_some]
      have w1 : writeAt (castS s2).parents (rep j : ℤ) (rep i : ℤ) = castL (s2.parents.set (rep j) (rep i)) :=
        writeAt_cast _ _ _
      have w2 : writeAt (castS s2).ranks (rep i : ℤ) ((a + 1 : Nat) : ℤ) = castL (s2.ranks.set (rep i) (a + 1)) :=
        writeAt_cast _ _ _
      rw [w1, w2, readAt_cast]
      cases (s2.parents.set (rep j) (rep i))[rep i]? <;> rfl
    · rw [if_neg hab, if_neg hab]
      by_cases hgt : b < a
      · rw [if_pos hgt, if_pos hgt]
        have w1 : writeAt (castS s2).parents (rep j : ℤ) (rep i : ℤ) =
          castL (s2.parents.set (rep j) (rep i)) := writeAt_cast _ _ _
        rw [w1]; rfl
      · rw [if_neg hgt, if_neg hgt]
        have w1 : writeAt (castS s2).parents (rep i : ℤ) (rep j : ℤ) =
          castL (s2.parents.set (rep i) (rep j)) := writeAt_cast _ _ _
        rw [w1]; rfl

/-- One call on naturals, with the value returned. -/
def natStep (s : UF.State) : UF.Op → Option (UF.State × Nat)
  | .find a => UF.find s a
  | .merge a b => UF.merge s a b

/-- A history on naturals, with the values returned. -/
def natRun (s : UF.State) : List UF.Op → Option (UF.State × List Nat)
  | [] => some (s, [])
  | op :: ops => do
    let (s, r) ← natStep s op
    let (s, rs) ← natRun s ops
    some (s, r :: rs)

/-- The values do not change the state. -/
theorem natRun_run : ∀ (s : UF.State) (ops : List UF.Op), (natRun s ops).map Prod.fst = UF.run s ops
  | _, [] => rfl
  | s, op :: ops => by
    have e : UF.step s op = (natStep s op).map Prod.fst := by cases op <;> rfl
    simp only [natRun, UF.run, e]
    cases natStep s op with
    | none => rfl
    | some p =>
      simp only [Option.bind_eq_bind, Option.bind_some, Option.map_some, ← natRun_run p.1 ops]
      cases natRun p.1 ops <;> rfl

/-- Histories one after the other. -/
theorem natRun_append (l1 l2 : List UF.Op) : ∀ u : UF.State, natRun u (l1 ++ l2) =
    (natRun u l1).bind (fun q => (natRun q.1 l2).map (fun r => (r.1, q.2 ++ r.2))) := by
  induction l1 with
  | nil => intro u; simp only [List.nil_append, natRun, Option.bind_some]; cases natRun u l2 <;> rfl
  | cons o l1 ih =>
    intro u
    simp only [List.cons_append, natRun, Option.bind_eq_bind]
    cases natStep u o with
    | none => rfl
    | some q =>
      simp only [Option.bind_some, ih]
      cases natRun q.1 l1 with
      | none => rfl
      | some q1 =>
        simp only [Option.bind_some]
        cases natRun q1.1 l2 <;> rfl

theorem run_cast (hb : 1 ≤ t.bits) {n : Nat} (hn : (n : ℤ) ≤ t.max + 1)
    (hp : t.promoted.signed = true → (n : ℤ) ≤ t.promoted.max) :
    ∀ (ops : List UF.Op) (s : UF.State) (rep : Nat → Nat), UF.SInv n s rep → (∀ op ∈ ops, op.Valid n) →
      ufRun t (castS s) ops = (natRun s ops).map (fun p => (castS p.1, castL p.2))
  | [], _, _, _, _ => rfl
  | op :: ops, s, rep, h, hv => by
    have hv0 := hv op (by simp)
    have hvs : ∀ o ∈ ops, o.Valid n := fun o ho => hv o (by simp [ho])
    have hmin := min_nonpos t
    have conv : ∀ a : Nat, a < n → t.convert a = a := fun a ha =>
      convert_of_range hb (by omega) (by omega)
    cases op with
    | find a =>
      obtain ⟨s1, e1, inv1, _⟩ := UF.find_spec h (i := a) hv0
      have ih := run_cast hb hn hp ops s1 rep inv1 hvs
      simp only [ufRun, natRun, ufStep, natStep, conv a hv0, find_cast, e1, Option.map_some,
        Option.bind_eq_bind, Option.bind_some, ih]
      cases natRun s1 ops <;> rfl
    | merge a b =>
      obtain ⟨s1, c, d, e1, _, inv1⟩ := UF.merge_spec h (i := a) (j := b) hv0.1 hv0.2
      have ih := run_cast hb hn hp ops s1 _ inv1 hvs
      simp only [ufRun, natRun, ufStep, natStep, conv a hv0.1, conv b hv0.2, merge_cast hb hn hp h hv0.1 hv0.2,
        e1, Option.map_some, Option.bind_eq_bind, Option.bind_some, ih]
      cases natRun s1 ops <;> rfl

/-! ### edit distance -/

/-- Two folds over the same range that are related by a function, under an invariant of the first one. -/
theorem foldlM_sim {A B : Type} (f : A → Nat → Option A) (g : B → Nat → Option B) (c : A → B)
    (P : Nat → A → Prop) (n : Nat)
    (hstep : ∀ k, k < n → ∀ a, P k a → g (c a) k = (f a k).map c ∧ ∀ a', f a k = some a' → P (k + 1) a')
    (a : A) (h0 : P 0 a) :
    (List.range n).foldlM g (c a) = ((List.range n).foldlM f a).map c ∧
      ∀ a', (List.range n).foldlM f a = some a' → P n a' := by
  induction n with
  | zero =>
    refine ⟨rfl, ?_⟩
    intro a' h
    simp only [List.range_zero, List.foldlM_nil, Option.pure_def, Option.some.injEq] at h
    exact h ▸ h0
  | succ n ih =>
    obtain ⟨e, hP⟩ := ih (fun k hk => hstep k (by omega))
    rw [List.range_succ, List.foldlM_append, List.foldlM_append, e]
    cases hf : (List.range n).foldlM f a with
    | none => exact ⟨rfl, fun _ h => by simp at h⟩
    | some b =>
      obtain ⟨e1, e2⟩ := hstep n (by omega) b (hP b hf)
      simp only [Option.map_some, Option.bind_eq_bind, Option.bind_some, List.foldlM_cons,
        List.foldlM_nil, e1]
      constructor
      · cases f b n <;> rfl
      · intro a' h
        cases hb : f b n with
        | none => rw [hb] at h; simp at h
        | some b' =>
          rw [hb] at h
          simp only [Option.bind_some, Option.pure_def, Option.some.injEq] at h
          exact h ▸ e2 b' hb

section

variable {α : Type} [DecidableEq α]

open Verif.Levenshtein

theorem castL_get (l : List Nat) (i : Nat) : (castL l)[i]? = (l[i]?).map (fun i : Nat => (i : ℤ)) := by
  simp [castL]

theorem result_succ {c : IntType} {v : Nat} (h : (v : ℤ) + 1 ≤ c.max) :
    c.result ((v : ℤ) + 1) = some ((v + 1 : Nat) : ℤ) := by
  have := min_nonpos c
  rw [result_of_le (by omega) h]
  push_cast; rfl

theorem levInner_cast {c : IntType} (left right : List α) (i : Nat) (prev cur : List Nat) (j M : Nat)
    (hM : (M : ℤ) + 1 ≤ c.max) (h1 : ∀ v, prev[j + 1]? = some v → v ≤ M)
    (h2 : ∀ v, cur[j]? = some v → v ≤ M) (h3 : ∀ v, prev[j]? = some v → v ≤ M) :
    levInner c left right i (castL prev) (castL cur) j =
      (innerStep left right i prev cur j).map castL := by
  unfold levInner innerStep
  simp only [castL_get, castL_length]
  cases e1 : prev[j + 1]? with
  | none => rfl
  | some p1 =>
  cases e2 : cur[j]? with
  | none => rfl
  | some c0 =>
  cases e3 : left[i]? with
  | none => rfl
  | some a =>
  cases e4 : right[j]? with
  | none => rfl
  | some b =>
  cases e5 : prev[j]? with
  | none => rfl
  | some p0 =>
  have g1 := h1 _ e1
  have g2 := h2 _ e2
  have g3 := h3 _ e5
  simp only [Option.map_some, Option.bind_eq_bind, Option.bind_some,
    result_succ (c := c) (v := p1) (by omega), result_succ (c := c) (v := c0) (by omega),
    result_succ (c := c) (v := p0) (by omega)]
  by_cases hab : a = b
  · simp only [hab, if_true]
    split
    · simp only [Option.map_some, Option.some.injEq, castL, List.map_set, Nat.cast_min]
    · rfl
  · simp only [hab, if_false]
    split
    · simp only [Option.map_some, Option.some.injEq, castL, List.map_set, Nat.cast_min]
    · rfl

theorem inner_bound (left right : List α) (i : Nat) (prev cur cur' : List Nat) (j : Nat)
    (hp : ∀ k v, prev[k]? = some v → v ≤ max i k)
    (hc : ∀ k v, k ≤ j → cur[k]? = some v → v ≤ max (i + 1) k)
    (h : innerStep left right i prev cur j = some cur') :
    cur'.length = cur.length ∧ ∀ k v, k ≤ j + 1 → cur'[k]? = some v → v ≤ max (i + 1) k := by
  unfold innerStep at h
  simp only [Option.bind_eq_bind, Option.bind_eq_some_iff] at h
  obtain ⟨p1, _, c0, _, a, _, b, _, p0, e5, h⟩ := h
  have g3 := hp _ _ e5
  split at h
  · rename_i hl
    simp only [Option.some.injEq] at h
    subst h
    refine ⟨by simp, fun k v hk hv => ?_⟩
    rw [List.getElem?_set] at hv
    split at hv
    · rename_i hkj
      subst hkj
      simp only [hl, if_true, Option.some.injEq] at hv
      subst hv
      split <;> omega
    · exact hc k v (by omega) hv
  · exact absurd h (by simp)

theorem outer_cast {c : IntType} (hb : 1 ≤ c.bits) (left right : List α)
    (hM : (max left.length right.length : ℤ) + 1 ≤ c.max) (bufs : List Nat × List Nat) (i : Nat)
    (hi : i < left.length) (hl : bufs.2.length = right.length + 1)
    (hp : ∀ k v, bufs.1[k]? = some v → v ≤ max i k) :
    levOuter c left right (castL bufs.1, castL bufs.2) i =
      (outerStep left right bufs i).map (fun p => (castL p.1, castL p.2)) ∧
    ∀ b', outerStep left right bufs i = some b' → b'.2 = bufs.1 ∧ b'.1.length = bufs.2.length ∧
      ∀ k v, k ≤ right.length → b'.1[k]? = some v → v ≤ max (i + 1) k := by
  obtain ⟨prev, cur⟩ := bufs
  simp only at hl hp
  have hpos : 0 < cur.length := by omega
  have hmin := min_nonpos c
  have hconv : c.convert ((i : ℤ) + 1) = ((i + 1 : Nat) : ℤ) := by
    rw [convert_of_range hb (by omega) (by omega)]; push_cast; rfl
  have hset : (castL cur).set 0 ((i + 1 : Nat) : ℤ) = castL (cur.set 0 (i + 1)) := by
    simp [castL, List.map_set]
  obtain ⟨e, hP⟩ := foldlM_sim (innerStep left right i prev) (levInner c left right i (castL prev)) castL
    (fun j cur' => cur'.length = cur.length ∧ ∀ k v, k ≤ j → cur'[k]? = some v → v ≤ max (i + 1) k)
    right.length
    (fun j hj cur' hc => ⟨levInner_cast left right i prev cur' j (max left.length right.length)
        (by push_cast; exact hM)
        (fun v hv => by have := hp _ _ hv; omega)
        (fun v hv => by have := hc.2 _ _ (Nat.le_refl j) hv; omega)
        (fun v hv => by have := hp _ _ hv; omega),
      fun cur'' h'' => by
        obtain ⟨q1, q2⟩ := inner_bound left right i prev cur' cur'' j hp hc.2 h''
        exact ⟨q1.trans hc.1, q2⟩⟩)
    (cur.set 0 (i + 1)) ⟨by simp, fun k v hk hv => by
      have hk : k = 0 := by omega
      subst hk
      rw [List.getElem?_set_self hpos] at hv
      simp only [Option.some.injEq] at hv
      omega⟩
  unfold levOuter outerStep
  simp only [castL_length, hpos, if_true, hconv, hset, e, Option.bind_eq_bind]
  constructor
  · cases (List.range right.length).foldlM (innerStep left right i prev) (cur.set 0 (i + 1)) <;> rfl
  · intro b' hb'
    simp only [Option.bind_eq_some_iff, Option.some.injEq] at hb'
    obtain ⟨cur', h', rfl⟩ := hb'
    exact ⟨rfl, hP cur' h'⟩

/-- The edit distance with machine costs is the edit distance, when one more than the longer sequence fits. -/
theorem levMachine_eq {c : IntType} (hb : 1 ≤ c.bits) (hc : c.promoted = c) (left right : List α)
    (hM : (max left.length right.length : ℤ) + 1 ≤ c.max) :
    levMachine c left right = (levenshtein left right).map (fun i : Nat => (i : ℤ)) := by
  have hmin := min_nonpos c
  have hmax := max_nonneg c
  have hz : c.convert 0 = 0 := convert_of_range hb hmin hmax
  have hrow : iota c (right.length + 1) (c.convert 0) = some (castL (List.range (right.length + 1))) := by
    rw [hz, (iota_iff hb (right.length + 1) 0 hmin hmax).2]
    · simp [castL]
    · right
      rw [hc]
      push_cast
      exact ⟨by omega, fun _ => by omega⟩
  have hrep : List.replicate (right.length + 1) (0 : ℤ) = castL (List.replicate (right.length + 1) 0) := by
    simp [castL]
  obtain ⟨e, _⟩ := foldlM_sim (outerStep left right) (levOuter c left right)
    (fun p => (castL p.1, castL p.2))
    (fun i p => p.1.length = right.length + 1 ∧ p.2.length = right.length + 1 ∧
      ∀ k v, p.1[k]? = some v → v ≤ max i k)
    left.length
    (fun i hi p hp => by
      obtain ⟨q1, q2⟩ := outer_cast hb left right hM p i hi hp.2.1 hp.2.2
      refine ⟨q1, fun p' hp' => ?_⟩
      obtain ⟨r1, r2, r3⟩ := q2 p' hp'
      refine ⟨r2.trans hp.2.1, by rw [r1]; exact hp.1, fun k v hv => ?_⟩
      have := (List.getElem?_eq_some_iff.1 hv).1
      exact r3 k v (by have := hp.2.1; omega) hv)
    (List.range (right.length + 1), List.replicate (right.length + 1) 0)
    ⟨by simp, by simp, fun k v hv => by
      rw [List.getElem?_eq_some_iff] at hv
      obtain ⟨_, hv⟩ := hv
      simp at hv
      omega⟩
  unfold levMachine levenshtein
  simp only [hrow, hrep, Option.bind_eq_bind, Option.bind_some, e]
  cases (List.range left.length).foldlM (outerStep left right)
      (List.range (right.length + 1), List.replicate (right.length + 1) 0) with
  | none => rfl
  | some p => simp [castL_get]

end

end Verif.MachineInt
