import Verif.Model.KMeans
import Verif.Spec.KMeans
import Verif.Props.Statistics
import Mathlib.Tactic.Linarith
import Mathlib.Tactic.Ring
import Mathlib.Tactic.Abel

/-
Lemmas for the k-means model.
-/

namespace Verif.KMeans

set_option linter.unusedSectionVars false

section Utils

variable {V K : Type} [LinearOrder K]

theorem nearestLoop_spec (dist : V → V → K) (x : V) : ∀ (cs : List V) (j mi : Nat) (md : K),
    (nearestLoop dist x j cs (mi, md) = (mi, md) ∧ ∀ c ∈ cs, md ≤ dist x c) ∨
    ∃ t c, cs[t]? = some c ∧ nearestLoop dist x j cs (mi, md) = (j + t, dist x c) ∧
      dist x c < md ∧ (∀ c' ∈ cs, dist x c ≤ dist x c') ∧
      ∀ (t' : Nat) c', t' < t → cs[t']? = some c' → dist x c < dist x c'
  | [], j, mi, md => by left; simp [nearestLoop]
  | c :: cs, j, mi, md => by
    simp only [nearestLoop]
    by_cases h : dist x c < md
    · rw [if_pos h]
      right
      rcases nearestLoop_spec dist x cs (j + 1) j (dist x c) with ⟨e, hle⟩ | ⟨t, d, hd, e, hlt, hle, hf⟩
      · refine ⟨0, c, rfl, e, h, ?_, fun t' c' ht' => absurd ht' (Nat.not_lt_zero _)⟩
        intro c' hc'
        rcases List.mem_cons.1 hc' with rfl | hc'
        · exact le_rfl
        · exact hle c' hc'
      · refine ⟨t + 1, d, by simpa using hd, by rw [e]; congr 1; omega, hlt.trans h, ?_, ?_⟩
        · intro c' hc'
          rcases List.mem_cons.1 hc' with rfl | hc'
          · exact hlt.le
          · exact hle c' hc'
        · intro t' c' ht' hc'
          cases t' with
          | zero => simp at hc'; subst hc'; exact hlt
          | succ t' => exact hf t' c' (by omega) (by simpa using hc')
    · rw [if_neg h]
      rcases nearestLoop_spec dist x cs (j + 1) mi md with ⟨e, hle⟩ | ⟨t, d, hd, e, hlt, hle, hf⟩
      · left
        refine ⟨e, ?_⟩
        intro c' hc'
        rcases List.mem_cons.1 hc' with rfl | hc'
        · exact not_lt.1 h
        · exact hle c' hc'
      · right
        refine ⟨t + 1, d, by simpa using hd, by rw [e]; congr 1; omega, hlt, ?_, ?_⟩
        · intro c' hc'
          rcases List.mem_cons.1 hc' with rfl | hc'
          · exact hlt.le.trans (not_lt.1 h)
          · exact hle c' hc'
        · intro t' c' ht' hc'
          cases t' with
          | zero => simp at hc'; subst hc'; exact hlt.trans_le (not_lt.1 h)
          | succ t' => exact hf t' c' (by omega) (by simpa using hc')

theorem minLoop_eq (dist : V → V → K) (x : V) : ∀ (cs : List V) (j mi : Nat) (md : K),
    minLoop dist x cs md = (nearestLoop dist x j cs (mi, md)).2
  | [], _, _, _ => rfl
  | c :: cs, j, mi, md => by
    simp only [nearestLoop, minLoop]
    by_cases h : dist x c < md
    · rw [if_pos h, if_pos h]; exact minLoop_eq dist x cs _ _ _
    · rw [if_neg h, if_neg h]; exact minLoop_eq dist x cs _ _ _

theorem nearest_spec (inf : K) (dist : V → V → K) (cs : List V) (x : V) (hne : cs ≠ [])
    (hinf : ∀ c ∈ cs, dist x c < inf) :
    ∃ t c, cs[t]? = some c ∧ (nearestLoop dist x 0 cs (0, inf)).1 = t ∧
      minLoop dist x cs inf = dist x c ∧ (∀ c' ∈ cs, dist x c ≤ dist x c') ∧
      ∀ (t' : Nat) c', t' < t → cs[t']? = some c' → dist x c < dist x c' := by
  rcases nearestLoop_spec dist x cs 0 0 inf with ⟨_, h⟩ | ⟨t, c, hc, e, hlt, hle, hf⟩
  · obtain ⟨c, hc⟩ := List.exists_mem_of_ne_nil cs hne
    exact absurd (hinf c hc) (not_lt.2 (h c hc))
  · refine ⟨t, c, hc, by rw [e]; simp, ?_, hle, hf⟩
    rw [minLoop_eq dist x cs 0 0, e]

theorem secondLoop_spec (eq : K → K → Bool) (hrefl : ∀ a, eq a a = true) (dist : V → V → K) (x : V) :
    ∀ (cs : List V) (f s : K) (seen : List K), (∀ w ∈ seen, f ≤ w) →
      (∀ w ∈ seen, s ≤ w ∨ eq w f = true) →
      ∀ r, secondLoop eq dist x cs (f, s) = r →
        r.1 = minLoop dist x cs f ∧
        (∀ w ∈ seen, r.2 ≤ w ∨ eq w r.1 = true) ∧ (∀ c ∈ cs, r.2 ≤ dist x c ∨ eq (dist x c) r.1 = true)
  | [], f, s, seen, hf, hs, r, hr => by
    simp only [secondLoop] at hr
    subst hr
    exact ⟨rfl, hs, by simp⟩
  | c :: cs, f, s, seen, hf, hs, r, hr => by
    simp only [secondLoop] at hr
    simp only [minLoop]
    by_cases h : dist x c < f
    · rw [if_pos h] at hr ⊢
      have := secondLoop_spec eq hrefl dist x cs (dist x c) f (dist x c :: seen) (by
        intro w hw
        rcases List.mem_cons.1 hw with rfl | hw
        · exact le_rfl
        · exact h.le.trans (hf w hw)) (by
        intro w hw
        rcases List.mem_cons.1 hw with rfl | hw
        · exact Or.inr (hrefl _)
        · exact Or.inl (hf w hw)) r hr
      refine ⟨this.1, fun w hw => this.2.1 w (List.mem_cons_of_mem _ hw), ?_⟩
      intro c' hc'
      rcases List.mem_cons.1 hc' with rfl | hc'
      · exact this.2.1 _ List.mem_cons_self
      · exact this.2.2 c' hc'
    · rw [if_neg h] at hr ⊢
      have key : ∀ s', (∀ w ∈ dist x c :: seen, s' ≤ w ∨ eq w f = true) →
          secondLoop eq dist x cs (f, s') = r →
          r.1 = minLoop dist x cs f ∧ (∀ w ∈ seen, r.2 ≤ w ∨ eq w r.1 = true) ∧
            (∀ c' ∈ c :: cs, r.2 ≤ dist x c' ∨ eq (dist x c') r.1 = true) := by
        intro s' hs' hr
        have := secondLoop_spec eq hrefl dist x cs f s' (dist x c :: seen) (by
          intro w hw
          rcases List.mem_cons.1 hw with rfl | hw
          · exact not_lt.1 h
          · exact hf w hw) hs' r hr
        refine ⟨this.1, fun w hw => this.2.1 w (List.mem_cons_of_mem _ hw), ?_⟩
        intro c' hc'
        rcases List.mem_cons.1 hc' with rfl | hc'
        · exact this.2.1 _ List.mem_cons_self
        · exact this.2.2 c' hc'
      by_cases h2 : dist x c < s
      · by_cases h3 : eq (dist x c) f = true
        · simp only [h3, Bool.not_true, Bool.and_false, Bool.false_eq_true, if_false] at hr
          exact key s (by
            intro w hw
            rcases List.mem_cons.1 hw with rfl | hw
            · exact Or.inr h3
            · exact hs w hw) hr
        · simp only [h2, h3, decide_true, Bool.not_false, Bool.and_self, if_true] at hr
          exact key _ (by
            intro w hw
            rcases List.mem_cons.1 hw with rfl | hw
            · exact Or.inl le_rfl
            · rcases hs w hw with h | h
              · exact Or.inl (h2.le.trans h)
              · exact Or.inr h) hr
      · simp only [h2, decide_false, Bool.false_and, Bool.false_eq_true, if_false] at hr
        exact key s (by
          intro w hw
          rcases List.mem_cons.1 hw with rfl | hw
          · exact Or.inl (not_lt.1 h2)
          · exact hs w hw) hr

theorem neighborLoop_le (dist : V → V → K) (i : Nat) (c : V) : ∀ (os : List V) (j : Nat) (md : K),
    neighborLoop dist i c j os md ≤ md ∧
      ∀ (t : Nat) o, os[t]? = some o → j + t ≠ i → neighborLoop dist i c j os md ≤ dist c o
  | [], j, md => by simp [neighborLoop]
  | o :: os, j, md => by
    simp only [neighborLoop]
    have key : ∀ md', md' ≤ md → (i ≠ j → md' ≤ dist c o) →
        neighborLoop dist i c (j + 1) os md' ≤ md ∧
        ∀ (t : Nat) o', (o :: os)[t]? = some o' → j + t ≠ i →
          neighborLoop dist i c (j + 1) os md' ≤ dist c o' := by
      intro md' h1 h2
      have ih := neighborLoop_le dist i c os (j + 1) md'
      refine ⟨ih.1.trans h1, ?_⟩
      intro t o' ht hne
      cases t with
      | zero =>
        simp at ht
        subst ht
        exact ih.1.trans (h2 (by omega))
      | succ t => exact ih.2 t o' (by simpa using ht) (by omega)
    by_cases h : i ≠ j ∧ dist c o < md
    · rw [if_pos h]
      exact key _ h.2.le (fun _ => le_rfl)
    · rw [if_neg h]
      refine key _ le_rfl (fun hne => ?_)
      exact not_lt.1 (fun h' => h ⟨hne, h'⟩)

theorem neighborDistances_spec (inf : K) (dist : V → V → K) (cs : List V) :
    (neighborDistances inf dist cs).length = cs.length ∧
    ∀ (i : Nat) c, cs[i]? = some c → ∃ v, (neighborDistances inf dist cs)[i]? = some v ∧
      ∀ (j : Nat) o, cs[j]? = some o → j ≠ i → v ≤ dist c o := by
  refine ⟨by simp [neighborDistances], ?_⟩
  intro i c hc
  refine ⟨neighborLoop dist i c 0 cs inf, ?_, ?_⟩
  · simp [neighborDistances, List.getElem?_zipIdx, hc]
  · intro j o ho hne
    exact (neighborLoop_le dist i c cs 0 inf).2 j o ho (by omega)

end Utils

/-! ### sizes and sums -/

section Tally

variable {V : Type}

theorem members_nil (j : Nat) : members ([] : List (V × Nat)) j = [] := rfl

theorem members_append (p q : List (V × Nat)) (j : Nat) :
    members (p ++ q) j = members p j ++ members q j := by
  simp [members]

theorem members_cons (x : V) (i : Nat) (ps : List (V × Nat)) (j : Nat) :
    members ((x, i) :: ps) j = if i = j then x :: members ps j else members ps j := by
  simp only [members, List.filter_cons, decide_eq_true_eq]
  split <;> simp

theorem sizesLoop_spec (k : Nat) : ∀ (ps pre : List (V × Nat)), (∀ p ∈ ps, p.2 < k) →
    sizesLoop ((List.range k).map fun j => (members pre j).length) (ps.map Prod.snd) =
      some ((List.range k).map fun j => (members (pre ++ ps) j).length)
  | [], pre, _ => by simp [sizesLoop]
  | (x, i) :: ps, pre, h => by
    have hi : i < k := h _ List.mem_cons_self
    have ih := sizesLoop_spec k ps (pre ++ [(x, i)]) (fun p hp => h p (List.mem_cons_of_mem _ hp))
    have e : ((List.range k).map fun j => (members pre j).length).set i ((members pre i).length + 1) =
        (List.range k).map fun j => (members (pre ++ [(x, i)]) j).length := by
      apply List.ext_getElem?
      intro j
      rw [List.getElem?_set]
      by_cases hj : j < k
      · simp only [List.length_map, List.length_range, List.getElem?_map, List.getElem?_range hj,
          Option.map_some, members_append, members_cons, members_nil]
        by_cases hij : i = j
        · subst hij; simp [hi]
        · simp [hij]
      · rw [List.getElem?_eq_none (by simpa using hj), List.getElem?_eq_none (by simpa using hj)]
        have : i ≠ j := by omega
        simp [this]
    simp only [List.map_cons, sizesLoop, List.getElem?_map, List.getElem?_range hi, Option.map_some,
      Option.bind_eq_bind, Option.bind_some]
    rw [e, ih]
    simp

theorem sumsLoop_spec [AddCommGroup V] (k : Nat) : ∀ (ps pre : List (V × Nat)), (∀ p ∈ ps, p.2 < k) →
    sumsLoop ((List.range k).map fun j => (members pre j).sum) ps =
      some ((List.range k).map fun j => (members (pre ++ ps) j).sum)
  | [], pre, _ => by simp [sumsLoop]
  | (x, i) :: ps, pre, h => by
    have hi : i < k := h _ List.mem_cons_self
    have ih := sumsLoop_spec k ps (pre ++ [(x, i)]) (fun p hp => h p (List.mem_cons_of_mem _ hp))
    have e : ((List.range k).map fun j => (members pre j).sum).set i ((members pre i).sum + x) =
        (List.range k).map fun j => (members (pre ++ [(x, i)]) j).sum := by
      apply List.ext_getElem?
      intro j
      rw [List.getElem?_set]
      by_cases hj : j < k
      · simp only [List.length_map, List.length_range, List.getElem?_map, List.getElem?_range hj,
          Option.map_some, members_append, members_cons, members_nil]
        by_cases hij : i = j
        · subst hij; simp [hi]
        · simp [hij]
      · rw [List.getElem?_eq_none (by simpa using hj), List.getElem?_eq_none (by simpa using hj)]
        have : i ≠ j := by omega
        simp [this]
    simp only [sumsLoop, List.getElem?_map, List.getElem?_range hi, Option.map_some,
      Option.bind_eq_bind, Option.bind_some]
    rw [e, ih]
    simp

theorem cluster_spec [AddCommGroup V] (k : Nat) (xs : List V) (a : List Nat)
    (hl : a.length = xs.length) (ha : ∀ i ∈ a, i < k) :
    ∃ sizes sums, clusterSizes k a = some sizes ∧ clusterSums k xs a = some sums ∧
      Tally k (xs.zip a) sizes sums := by
  have hs : (xs.zip a).map Prod.snd = a := List.map_snd_zip hl.le
  have hp : ∀ p ∈ xs.zip a, p.2 < k := fun p hp => ha _ (List.of_mem_zip hp).2
  have h0 : List.replicate k 0 = (List.range k).map fun j => (members ([] : List (V × Nat)) j).length := by
    simp [members_nil]
  have h0' : List.replicate k (0 : V) = (List.range k).map fun j => (members ([] : List (V × Nat)) j).sum := by
    simp [members_nil]
  refine ⟨_, _, ?_, ?_, rfl, rfl⟩
  · rw [clusterSizes, h0]
    have := sizesLoop_spec k (xs.zip a) [] hp
    rw [hs] at this
    simpa using this
  · rw [clusterSums, h0']
    simpa using sumsLoop_spec k (xs.zip a) [] hp

theorem Tally.get [AddCommGroup V] {k : Nat} {ps : List (V × Nat)} {sizes : List Nat} {sums : List V}
    (h : Tally k ps sizes sums) {j : Nat} (hj : j < k) :
    sizes[j]? = some (members ps j).length ∧ sums[j]? = some (members ps j).sum := by
  rw [h.1, h.2]
  simp [List.getElem?_range hj]

theorem Tally.length [AddCommGroup V] {k : Nat} {ps : List (V × Nat)} {sizes : List Nat}
    {sums : List V} (h : Tally k ps sizes sums) : sizes.length = k ∧ sums.length = k := by
  rw [h.1, h.2]; simp

theorem tally_move [AddCommGroup V] {k : Nat} {pre post : List (V × Nat)} {x : V} {a b : Nat}
    {sizes : List Nat} {sums : List V} (h : Tally k (pre ++ (x, a) :: post) sizes sums) (ha : a < k)
    (hb : b < k) (hab : a ≠ b) :
    ∃ sizes' sums', moveSize sizes a b = some sizes' ∧ moveSum sums x a b = some sums' ∧
      Tally k (pre ++ (x, b) :: post) sizes' sums' := by
  have ga := h.get ha
  have gb := h.get hb
  have hl := h.length
  have gb1 : ∀ v, (sizes.set a v)[b]? = sizes[b]? := fun v => by
    rw [List.getElem?_set_ne hab]
  have gb2 : ∀ v, (sums.set a v)[b]? = sums[b]? := fun v => by
    rw [List.getElem?_set_ne hab]
  have hn : (members (pre ++ (x, a) :: post) a).length ≠ 0 := by
    simp [members_append, members_cons]
  refine ⟨(sizes.set a ((members (pre ++ (x, a) :: post) a).length - 1)).set b
      ((members (pre ++ (x, a) :: post) b).length + 1),
    (sums.set a ((members (pre ++ (x, a) :: post) a).sum - x)).set b
      ((members (pre ++ (x, a) :: post) b).sum + x), ?_, ?_, ?_, ?_⟩
  · simp only [moveSize, ga.1, Option.bind_eq_bind, Option.bind_some, if_neg hn, gb1, gb.1]
  · simp only [moveSum, ga.2, Option.bind_eq_bind, Option.bind_some, gb2, gb.2]
  · apply List.ext_getElem?
    intro j
    rw [List.getElem?_set, List.getElem?_set]
    by_cases hj : j < k
    · rw [(h.get hj).1]
      simp only [List.length_set, hl.1, List.getElem?_map, List.getElem?_range hj, Option.map_some,
        members_append, members_cons]
      by_cases h1 : b = j
      · subst h1; simp [hab, hb]; omega
      · by_cases h2 : a = j
        · subst h2; simp [h1, ha]
        · simp [h1, h2]
    · rw [List.getElem?_eq_none (l := (List.range k).map _) (by simpa using hj)]
      have : b ≠ j := by omega
      have : a ≠ j := by omega
      simp [*]
  · apply List.ext_getElem?
    intro j
    rw [List.getElem?_set, List.getElem?_set]
    by_cases hj : j < k
    · rw [(h.get hj).2]
      simp only [List.length_set, hl.2, List.getElem?_map, List.getElem?_range hj, Option.map_some,
        members_append, members_cons]
      by_cases h1 : b = j
      · subst h1; simp [hab, hb]; abel
      · by_cases h2 : a = j
        · subst h2; simp [h1, ha]; abel
        · simp [h1, h2]
    · rw [List.getElem?_eq_none (l := (List.range k).map _) (by simpa using hj)]
      have : b ≠ j := by omega
      have : a ≠ j := by omega
      simp [*]

end Tally

end Verif.KMeans
