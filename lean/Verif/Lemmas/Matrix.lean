import Verif.Model.Matrix
import Mathlib.Data.Multiset.Bind
import Mathlib.Algebra.Order.Ring.Nat
import Mathlib.Tactic.Common
import Mathlib.Tactic.Ring

namespace Verif.Matrix

/-- Consistent writes in range: every written position has its value, the others are unchanged. -/
theorem writeAll_spec {α : Type} (f : Nat → α) : ∀ (ws : List (Nat × α)) (a : List α),
    (∀ w ∈ ws, w.1 < a.length ∧ w.2 = f w.1) →
    ∃ r, writeAll a ws = some r ∧ r.length = a.length ∧
      ∀ k, (∀ v, (k, v) ∉ ws) → r[k]? = a[k]? := by
  intro ws
  induction ws with
  | nil => intro a _; exact ⟨a, rfl, rfl, fun _ _ => rfl⟩
  | cons w ws ih =>
    intro a h
    obtain ⟨k, v⟩ := w
    have hk := (h (k, v) (by simp)).1
    obtain ⟨r, e, hl, hr⟩ := ih (a.set k v) (fun w hw => by
      rw [List.length_set]; exact h w (by simp [hw]))
    refine ⟨r, by simp only [writeAll]; rw [if_pos (by simpa using hk)]; exact e,
      by rw [hl, List.length_set], ?_⟩
    intro k' hk'
    rw [hr k' (fun v' hv' => hk' v' (by simp [hv']))]
    have hne : k ≠ k' := by rintro rfl; exact hk' v (by simp)
    rw [List.getElem?_set_ne hne]

theorem writeAll_get {α : Type} (f : Nat → α) : ∀ (ws : List (Nat × α)) (a r : List α),
    (∀ w ∈ ws, w.1 < a.length ∧ w.2 = f w.1) → writeAll a ws = some r →
    ∀ w ∈ ws, r[w.1]? = some (f w.1) := by
  intro ws
  induction ws with
  | nil => intro a r _ _ w hw; simp at hw
  | cons w ws ih =>
    intro a r h e w' hw'
    obtain ⟨k, v⟩ := w
    have hk := h (k, v) (by simp)
    simp only [writeAll] at e
    rw [if_pos (by simpa using hk.1)] at e
    have h' : ∀ w ∈ ws, w.1 < (a.set k v).length ∧ w.2 = f w.1 := fun w hw => by
      rw [List.length_set]; exact h w (by simp [hw])
    by_cases hin : w' ∈ ws
    · exact ih _ _ h' e w' hin
    · have hwk : w' = (k, v) := by simpa [hin] using hw'
      subst hwk
      by_cases hex : ∃ v', (k, v') ∈ ws
      · obtain ⟨v', hv'⟩ := hex
        exact ih _ _ h' e (k, v') hv'
      · obtain ⟨r', e', _, hr'⟩ := writeAll_spec f ws (a.set k v) h'
        rw [e] at e'
        have := Option.some.inj e'
        subst this
        rw [hr' k (fun v' hv' => hex ⟨v', hv'⟩)]
        have := hk.2
        dsimp only at this hk ⊢
        rw [List.getElem?_set_self hk.1, this]

/-! ### triangular indexing -/

theorem two_flatIndex (r : Nat) : 2 * flatIndex r = r * (r - 1) := by
  unfold flatIndex
  refine Nat.mul_div_cancel' ?_
  cases r with
  | zero => simp
  | succ r =>
    rw [Nat.add_sub_cancel, Nat.mul_comm]
    exact (Nat.even_mul_succ_self r).two_dvd

theorem flatIndex_succ (r : Nat) : flatIndex (r + 1) = flatIndex r + r := by
  have h1 := two_flatIndex (r + 1)
  have h2 := two_flatIndex r
  rw [Nat.add_sub_cancel] at h1
  cases r with
  | zero => simp [flatIndex]
  | succ r =>
    rw [Nat.add_sub_cancel] at h2
    have : (r + 1 + 1) * (r + 1) = (r + 1) * r + 2 * (r + 1) := by ring
    omega

theorem flatIndex_mono {r s : Nat} (h : r ≤ s) : flatIndex r ≤ flatIndex s := by
  induction h with
  | refl => exact Nat.le_refl _
  | step _ ih => rw [flatIndex_succ]; omega

theorem flat_lt {r c s : Nat} (hc : c < r) (hr : r < s) : flatIndex r + c < flatIndex s := by
  have h1 := flatIndex_mono (r := r + 1) (s := s) hr
  rw [flatIndex_succ] at h1
  omega

theorem flat_inj {r c r' c' : Nat} (hc : c < r) (hc' : c' < r')
    (h : flatIndex r + c = flatIndex r' + c') : r = r' ∧ c = c' := by
  have h1 : r = r' := by
    rcases Nat.lt_trichotomy r r' with hlt | heq | hgt
    · have := flat_lt hc hlt; omega
    · exact heq
    · have := flat_lt hc' hgt; omega
  subst h1
  exact ⟨rfl, by omega⟩

theorem mem_triCells {n r c : Nat} : (r, c) ∈ triCells n ↔ c < r ∧ r < n := by
  simp only [triCells, List.mem_flatMap, List.mem_range'_1, List.mem_map, List.mem_range,
    Prod.mk.injEq]
  constructor
  · rintro ⟨r', h1, c', h2, rfl, rfl⟩; omega
  · rintro ⟨h1, h2⟩; exact ⟨r, by omega, c, h1, rfl, rfl⟩

theorem triCells_nodup (n : Nat) : (triCells n).Nodup := by
  unfold triCells
  rw [List.nodup_flatMap]
  refine ⟨fun r _ => (List.nodup_range).map (fun a b h => by simpa using h), ?_⟩
  refine (List.nodup_range' (s := 1) (n := n - 1)).imp ?_
  intro a b hab
  simp only [Function.onFun, List.disjoint_left, List.mem_map, not_exists, not_and]
  rintro _ ⟨c, _, rfl⟩ c' _ h
  simp only [Prod.mk.injEq] at h
  exact hab h.1.symm

/-- The value stored at a flat position. -/
theorem fillTri_spec {α : Type} (zero : α) (dist : Nat → Nat → α) (n : Nat)
    (schedule : List (Nat × Nat)) (hs : schedule.Perm (triCells n)) :
    ∃ data, fillTri zero dist n schedule = some data ∧ data.length = n * (n - 1) / 2 ∧
      ∀ r c, c < r → r < n → data[flatIndex r + c]? = some (dist r c) := by
  classical
  have hmem : ∀ r c, (r, c) ∈ schedule ↔ c < r ∧ r < n := by
    intro r c; rw [hs.mem_iff, mem_triCells]
  let f : Nat → α := fun k =>
    if h : ∃ rc : Nat × Nat, rc.2 < rc.1 ∧ flatIndex rc.1 + rc.2 = k then
      dist h.choose.1 h.choose.2 else zero
  have hf : ∀ r c, c < r → f (flatIndex r + c) = dist r c := by
    intro r c hc
    have hex : ∃ rc : Nat × Nat, rc.2 < rc.1 ∧ flatIndex rc.1 + rc.2 = flatIndex r + c :=
      ⟨(r, c), hc, rfl⟩
    have h2 := hex.choose_spec
    obtain ⟨h3, h4⟩ := flat_inj h2.1 hc h2.2
    simp only [f, dif_pos hex, h3, h4]
  have hws : ∀ w ∈ schedule.map (fun c => (flatIndex c.1 + c.2, dist c.1 c.2)),
      w.1 < (List.replicate (n * (n - 1) / 2) zero).length ∧ w.2 = f w.1 := by
    intro w hw
    obtain ⟨⟨r, c⟩, hrc, rfl⟩ := List.mem_map.1 hw
    obtain ⟨h1, h2⟩ := (hmem r c).1 hrc
    refine ⟨?_, (hf r c h1).symm⟩
    rw [List.length_replicate]
    exact flat_lt h1 h2
  obtain ⟨data, e, hl, _⟩ := writeAll_spec f _ _ hws
  refine ⟨data, e, by rw [hl, List.length_replicate], ?_⟩
  intro r c hc hr
  have := writeAll_get f _ _ _ hws e (flatIndex r + c, dist r c)
    (List.mem_map.2 ⟨(r, c), (hmem r c).2 ⟨hc, hr⟩, rfl⟩)
  rw [this, hf r c hc]

/-! ### transpose -/

theorem mem_seqCells {n m i j : Nat} : (i, j) ∈ seqCells n m ↔ i < n ∧ j < m := by
  simp [seqCells]

theorem steps_cover (n b : Nat) (hb : 1 ≤ b) : ∀ (fuel s : Nat), n ≤ s + fuel →
    (steps n b fuel s).flatMap (block n b) = List.range' s (n - s) := by
  intro fuel
  induction fuel with
  | zero => intro s h; simp [steps]; omega
  | succ fuel ih =>
    intro s h
    simp only [steps]
    by_cases hs : s < n
    · rw [if_pos hs, List.flatMap_cons, ih (s + b) (by omega)]
      unfold block
      by_cases hsb : s + b ≤ n
      · rw [Nat.min_eq_left hsb, Nat.add_sub_cancel_left]
        have : n - s = b + (n - (s + b)) := by omega
        rw [this, ← List.range'_append]
        simp
      · rw [Nat.min_eq_right (by omega)]
        have : n - (s + b) = 0 := by omega
        rw [this]; simp
    · rw [if_neg hs]
      have : n - s = 0 := by omega
      rw [this]; rfl

theorem blockCells_perm (n m b : Nat) (hb : 1 ≤ b) : (blockCells n m b).Perm (seqCells n m) := by
  have h1 := steps_cover n b hb n 0 (by omega)
  have h2 := steps_cover m b hb m 0 (by omega)
  rw [Nat.sub_zero, ← List.range_eq_range'] at h1 h2
  rw [← Multiset.coe_eq_coe]
  unfold blockCells seqCells
  rw [← h1, ← h2]
  rw [← Multiset.coe_bind, ← Multiset.coe_bind, ← Multiset.coe_bind, Multiset.bind_assoc]
  refine Multiset.bind_congr (fun si _ => ?_)
  have : ∀ i, ((List.map (fun j => (i, j)) ((steps m b m 0).flatMap (block m b)) : List (Nat × Nat)) :
      Multiset (Nat × Nat)) =
      (Multiset.bind (steps m b m 0 : Multiset Nat) (fun sj =>
        ((block m b sj).map (fun j => (i, j)) : Multiset (Nat × Nat)))) := by
    intro i
    rw [Multiset.coe_bind, List.map_flatMap]
  simp only [this]
  rw [Multiset.bind_bind, ← Multiset.coe_bind]
  refine Multiset.bind_congr (fun sj _ => ?_)
  rw [Multiset.coe_bind]

theorem readCells_spec {α : Type} (src : List α) (n m : Nat) (g : Nat → Nat → α)
    (hg : ∀ i j, i < n → j < m → src[i * m + j]? = some (g i j)) : ∀ cs : List (Nat × Nat),
    (∀ c ∈ cs, c.1 < n ∧ c.2 < m) →
    readCells src n m cs = some (cs.map (fun c => (c.2 * n + c.1, g c.1 c.2))) := by
  intro cs
  induction cs with
  | nil => intro _; rfl
  | cons c cs ih =>
    intro h
    obtain ⟨i, j⟩ := c
    have hij := h (i, j) (by simp)
    simp only [readCells, hg i j hij.1 hij.2, ih (fun c hc => h c (by simp [hc])),
      Option.bind_eq_bind, Option.bind_some, List.map_cons]

theorem cell_lt {n m i j : Nat} (hi : i < n) (hj : j < m) : j * n + i < n * m := by
  have : (j + 1) * n ≤ m * n := Nat.mul_le_mul_right n hj
  rw [Nat.add_mul, Nat.one_mul, Nat.mul_comm m n] at this
  omega

theorem cell_div {n i j : Nat} (hi : i < n) : (j * n + i) / n = j ∧ (j * n + i) % n = i := by
  constructor
  · rw [Nat.mul_comm, Nat.mul_add_div (by omega), Nat.div_eq_of_lt hi]; rfl
  · rw [Nat.mul_comm, Nat.mul_add_mod, Nat.mod_eq_of_lt hi]

theorem transpose_spec {α : Type} (zero : α) (src : List α) (n m : Nat) (g : Nat → Nat → α)
    (hg : ∀ i j, i < n → j < m → src[i * m + j]? = some (g i j))
    (schedule : List (Nat × Nat)) (hs : ∀ i j, (i, j) ∈ schedule ↔ i < n ∧ j < m) :
    ∃ out, transpose zero src n m schedule = some (out, m, n) ∧ out.length = n * m ∧
      ∀ i j, i < n → j < m → out[j * n + i]? = some (g i j) := by
  have hr := readCells_spec src n m g hg schedule (fun c hc => (hs c.1 c.2).1 hc)
  let f : Nat → α := fun k => g (k % n) (k / n)
  have hws : ∀ w ∈ schedule.map (fun c => (c.2 * n + c.1, g c.1 c.2)),
      w.1 < (List.replicate (n * m) zero).length ∧ w.2 = f w.1 := by
    intro w hw
    obtain ⟨⟨i, j⟩, hij, rfl⟩ := List.mem_map.1 hw
    obtain ⟨h1, h2⟩ := (hs i j).1 hij
    refine ⟨by rw [List.length_replicate]; exact cell_lt h1 h2, ?_⟩
    simp only [f, (cell_div h1).1, (cell_div h1).2]
  obtain ⟨out, e, hl, _⟩ := writeAll_spec f _ _ hws
  refine ⟨out, ?_, by rw [hl, List.length_replicate], ?_⟩
  · simp only [transpose, hr, e, Option.bind_eq_bind, Option.bind_some]
  · intro i j hi hj
    have := writeAll_get f _ _ _ hws e (j * n + i, g i j)
      (List.mem_map.2 ⟨(i, j), (hs i j).2 ⟨hi, hj⟩, rfl⟩)
    rw [this]
    simp only [f, (cell_div hi).1, (cell_div hi).2]

end Verif.Matrix
