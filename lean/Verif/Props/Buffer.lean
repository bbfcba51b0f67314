import Verif.Lemmas.Buffer
import Mathlib.Data.Nat.Basic

/-
Properties C12 and C13: search/buffer/StaticBuffer.hpp.
-/

namespace Verif.Buffer

variable {D : Type} [LinearOrder D]

theorem zip_map_fst_snd {α β : Type} (l : List (α × β)) :
    (l.map Prod.fst).zip (l.map Prod.snd) = l := by
  induction l with
  | nil => rfl
  | cons a l ih => simp [ih]

/-- **C12.** After any sequence `cs` of candidate updates the buffer of capacity `k >= 1` has made
no out-of-range access and its parallel arrays `indices()`, `distances()` hold `k` nearest of the
offered candidates. -/
theorem C12_keeps_k_nearest (inf : D) (k : Nat) (hk : 1 ≤ k) (hk2 : k < 2 ^ 64)
    (cs : List (Nat × D)) :
    ∃ b, (mk inf k).updates cs = some b ∧ b.indices.length = b.distances.length ∧
      IsKNearest k (b.indices.zip b.distances) cs := by
  obtain ⟨b, kept, e, h⟩ := updates_spec cs (WF.init inf k hk2)
  refine ⟨b, e, by rw [h.idx, h.dst]; simp, ?_⟩
  rw [h.idx, h.dst, zip_map_fst_snd]
  have := h.best
  have hc : capEff k = k := by unfold capEff; split <;> omega
  simpa [hc] using this

/-- **C12**, default capacity (`infinity<size_t>() = 0`): as long as fewer than `2^64` candidates
are offered, everything offered is kept. -/
theorem C12_default_capacity_keeps_all (inf : D) (cs : List (Nat × D)) (hcs : cs.length < 2 ^ 64) :
    ∃ b, (mk inf 0).updates cs = some b ∧ b.indices.length = b.distances.length ∧
      (b.indices.zip b.distances).Perm cs := by
  obtain ⟨b, kept, e, h⟩ := updates_spec cs (WF.init inf 0 (by simp [sizeMod]))
  refine ⟨b, e, by rw [h.idx, h.dst]; simp, ?_⟩
  rw [h.idx, h.dst, zip_map_fst_snd]
  obtain ⟨⟨rest, hp, _⟩, hl⟩ := h.best
  have hrest : rest = [] := by
    apply List.length_eq_zero_iff.1
    have h1 := hp.length_eq
    simp only [List.length_append, List.nil_append] at h1
    simp only [capEff, sizeMod, if_true, List.nil_append] at hl
    omega
  subst hrest
  simpa using hp

/-- **C13.** After any non-empty sequence of updates: `closest_distance()` is the minimum of the
kept distances and `closest_index()` a sample kept at that distance; `furthest_distance()` is the
maximum and `furthest_index()` (`indices[furthestPos]`) a sample kept at that distance. -/
theorem C13_extremes (inf : D) (k : Nat) (hk2 : k < 2 ^ 64)
    (cs : List (Nat × D)) (hcs : cs ≠ []) :
    ∃ b, (mk inf k).updates cs = some b ∧
      (b.closestIndex, b.closestDistance) ∈ b.indices.zip b.distances ∧
      (∀ d ∈ b.distances, b.closestDistance ≤ d) ∧
      (∃ i, b.indices[b.furthestPos]? = some i ∧
        b.distances[b.furthestPos]? = some b.furthestDistance) ∧
      (∀ d ∈ b.distances, d ≤ b.furthestDistance) := by
  obtain ⟨b, kept, e, h⟩ := updates_spec cs (WF.init inf k hk2)
  have hne : kept ≠ [] := by
    intro hc
    have h1 := h.best.2
    have h2 := capEff_pos k
    have h3 : 0 < cs.length := List.length_pos_iff.2 hcs
    rw [hc] at h1
    simp only [List.length_nil, List.nil_append] at h1
    omega
  obtain ⟨hc1, hc2⟩ := h.closest hne
  obtain ⟨⟨i, hf1⟩, hf2⟩ := h.furthest hne
  refine ⟨b, e, ?_, ?_, ⟨i, ?_, ?_⟩, ?_⟩
  · rw [h.idx, h.dst, zip_map_fst_snd]; exact hc1
  · intro d hd
    rw [h.dst] at hd
    obtain ⟨a, ha, rfl⟩ := List.mem_map.1 hd
    exact hc2 a ha
  · rw [h.idx, List.getElem?_map, hf1]; rfl
  · rw [h.dst, List.getElem?_map, hf1]; rfl
  · intro d hd
    rw [h.dst] at hd
    obtain ⟨a, ha, rfl⟩ := List.mem_map.1 hd
    exact hf2 a ha

/-- Concrete case: five candidates into a buffer of capacity 2, replacing twice. -/
example : ((mk (1000 : Nat) 2).updates [(0, 5), (1, 7), (2, 3), (3, 9), (4, 4)]).map
    (fun b => (b.indices, b.distances, b.closestIndex, b.furthestDistance)) =
    some ([4, 2], [4, 3], 2, 4) := by decide +kernel

/-- Concrete case for the default capacity. -/
example : ((mk (1000 : Nat) 0).updates [(0, 5), (1, 7), (2, 3)]).map (fun b => b.indices) =
    some [0, 1, 2] := by decide +kernel

end Verif.Buffer
