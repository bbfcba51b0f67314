import Verif.Lemmas.Parallel
import Verif.Lemmas.UnionFind

/-
Concurrent calls of `UnionFind::find`.
-/

namespace Verif.Parallel

open UF

/-- The parents of `n` samples as a list. -/
def parentsOf (n : Nat) (m : Nat → Nat) : List Nat := (List.range n).map m

theorem parentsOf_get {n i : Nat} (m : Nat → Nat) (hi : i < n) : (parentsOf n m)[i]? = some (m i) := by
  simp [parentsOf, hi]

theorem parentsOf_update {n i : Nat} (m : Nat → Nat) (g : Nat) :
    parentsOf n (Function.update m i g) = (parentsOf n m).set i g := by
  apply List.ext_getElem
  · simp [parentsOf]
  · intro j h1 h2
    simp only [parentsOf, List.length_map, List.length_range] at h1
    rw [List.getElem_set]
    simp only [parentsOf, List.getElem_map, List.getElem_range]
    by_cases h : i = j
    · subst h; simp
    · rw [if_neg h, Function.update_of_ne (Ne.symm h)]

/-- A write of a sample of the same set and of larger rank keeps the invariant. -/
theorem inv_set {n : Nat} {ps rs : List Nat} {rep : Nat → Nat} (h : UF.Inv n ps rs rep) {i g a b : Nat}
    (hi : i < n) (hroot : rep i ≠ i) (hg : g < n) (hrep : rep g = rep i) (ha : rs[i]? = some a)
    (hb : rs[g]? = some b) (hab : a < b) : UF.Inv n (ps.set i g) rs rep := by
  have hgi : g ≠ i := by
    rintro rfl
    rw [ha] at hb
    exact absurd (Option.some.inj hb) (by omega)
  refine ⟨by simp [h.lenP], h.lenR, ?_, ?_, ?_, ?_, ?_⟩
  · intro j q hq
    rw [List.getElem?_set] at hq
    split at hq
    · rename_i hij; subst hij
      simp [h.lenP, hi] at hq; subst hq
      exact ⟨hg, hrep⟩
    · exact h.par j q hq
  · intro j q a' b' hq hqj ha' hb'
    rw [List.getElem?_set] at hq
    split at hq
    · rename_i hij; subst hij
      simp [h.lenP, hi] at hq; subst hq
      rw [ha] at ha'; rw [hb] at hb'; simp at ha' hb'; omega
    · exact h.rank j q a' b' hq hqj ha' hb'
  · intro j hj
    refine ⟨(h.root j hj).1, ?_⟩
    rw [List.getElem?_set]
    split
    · rename_i hij
      have h1 := h.uniq _ (h.root j hj).2
      rw [← hij] at h1
      exact absurd h1 hroot
    · exact (h.root j hj).2
  · intro r hr
    rw [List.getElem?_set] at hr
    split at hr
    · rename_i hij; subst hij
      simp [h.lenP, hi] at hr; omega
    · exact h.uniq r hr
  · intro r k hr hk
    rw [List.getElem?_set] at hr
    split at hr
    · rename_i hij; subst hij
      simp [h.lenP, hi] at hr; omega
    · exact h.card r k hr hk

/-- The states of a call `find(start)`, with a bound of the accesses that are left.  `rs` are the ranks
and `top` is the rank of the representative. -/
inductive FindState (n : Nat) (rs : List Nat) (rep : Nat → Nat) (start top : Nat) :
    Nat → Prog (fun _ : Nat => Nat) (Option Nat) → Prop
  | loop (fuel index a : Nat) : index < n → rep index = rep start → rs[index]? = some a → a ≤ top →
      top - a < fuel → FindState n rs rep start top (4 * fuel) (findProg fuel index)
  | again (fuel index a : Nat) : index < n → rep index = rep start → rs[index]? = some a →
      top - a ≤ fuel → rep index ≠ index →
      FindState n rs rep start top (4 * fuel + 3) (.read (V := fun _ : Nat => Nat) index fun temp =>
        .read (V := fun _ : Nat => Nat) temp fun g =>
          .write (V := fun _ : Nat => Nat) index g (findProg fuel temp))
  | grand (fuel index temp a b : Nat) : index < n → rep index = rep start → rs[index]? = some a →
      top - a ≤ fuel → rep index ≠ index → temp < n → rep temp = rep start → rs[temp]? = some b → a < b →
      FindState n rs rep start top (4 * fuel + 2) (.read (V := fun _ : Nat => Nat) temp fun g =>
          .write (V := fun _ : Nat => Nat) index g (findProg fuel temp))
  | set (fuel index temp g a b c : Nat) : index < n → rep index = rep start → rs[index]? = some a →
      top - a ≤ fuel → rep index ≠ index → temp < n → rep temp = rep start → rs[temp]? = some b → a < b →
      g < n → rep g = rep start → rs[g]? = some c → a < c →
      FindState n rs rep start top (4 * fuel + 1)
        (.write (V := fun _ : Nat => Nat) index g (findProg fuel temp))
  | done : FindState n rs rep start top 0 (.ret (some (rep start)))

theorem rank_le_top {n : Nat} {ps rs : List Nat} {rep : Nat → Nat} (h : UF.Inv n ps rs rep) {p b k : Nat}
    (hpn : p < n) (hb : rs[p]? = some b) (hk : rs[rep p]? = some k) : b ≤ k :=
  findLoop_spec.rank_le_root ps p b k h hpn hb hk

/-- One access of a call. -/
theorem FindState.step {n : Nat} {rs : List Nat} {rep : Nat → Nat} {start top b : Nat}
    {m m' : Mem fun _ : Nat => Nat} {p p' : Prog (fun _ : Nat => Nat) (Option Nat)}
    (hm : UF.Inv n (parentsOf n m) rs rep) (htop : rs[rep start]? = some top)
    (hp : FindState n rs rep start top b p) (ha : act m p = some (p', m')) :
    UF.Inv n (parentsOf n m') rs rep ∧ ∃ b', b' + 1 ≤ b ∧ FindState n rs rep start top b' p' := by
  cases hp with
  | loop fuel index a h1 h2 h3 h4 h5 =>
    cases fuel with
    | zero => omega
    | succ fuel =>
      simp only [findProg, act, Option.some.injEq, Prod.mk.injEq] at ha
      obtain ⟨rfl, rfl⟩ := ha
      refine ⟨hm, ?_⟩
      by_cases he : index = m index
      · rw [if_pos he]
        have hr : rep index = index := by
          apply hm.uniq
          rw [parentsOf_get m h1]; exact congrArg some he.symm
        rw [← hr, h2]
        exact ⟨0, by omega, .done⟩
      · rw [if_neg he]
        refine ⟨4 * fuel + 3, by omega, .again fuel index a h1 h2 h3 (by omega) ?_⟩
        intro hr
        have := (hm.root index h1).2
        rw [hr, parentsOf_get m h1] at this
        exact he (Option.some.inj this).symm
  | again fuel index a h1 h2 h3 h4 h5 =>
    simp only [act, Option.some.injEq, Prod.mk.injEq] at ha
    obtain ⟨rfl, rfl⟩ := ha
    obtain ⟨q1, q2⟩ := hm.par index (m index) (parentsOf_get m h1)
    obtain ⟨b, hb⟩ := hm.exists_rank q1
    have hne : m index ≠ index := by
      intro h
      apply h5
      apply hm.uniq
      rw [parentsOf_get m h1, h]
    exact ⟨hm, _, by omega, .grand fuel index (m index) a b h1 h2 h3 h4 h5 q1 (q2.trans h2) hb
      (hm.rank index (m index) a b (parentsOf_get m h1) hne h3 hb)⟩
  | grand fuel index temp a b h1 h2 h3 h4 h5 h6 h7 h8 h9 =>
    simp only [act, Option.some.injEq, Prod.mk.injEq] at ha
    obtain ⟨rfl, rfl⟩ := ha
    obtain ⟨q1, q2⟩ := hm.par temp (m temp) (parentsOf_get m h6)
    obtain ⟨c, hc⟩ := hm.exists_rank q1
    have := hm.rank_le (parentsOf_get m h6) h8 hc
    exact ⟨hm, _, by omega, .set fuel index temp (m temp) a b c h1 h2 h3 h4 h5 h6 h7 h8 h9 q1
      (q2.trans h7) hc (by omega)⟩
  | set fuel index temp g a b c h1 h2 h3 h4 h5 h6 h7 h8 h9 h10 h11 h12 h13 =>
    simp only [act, Option.some.injEq, Prod.mk.injEq] at ha
    obtain ⟨rfl, rfl⟩ := ha
    refine ⟨?_, 4 * fuel, by omega, .loop fuel temp b h6 h7 h8 ?_ ?_⟩
    · rw [parentsOf_update]
      exact inv_set hm h1 h5 h10 (h11.trans h2.symm) h3 h12 h13
    · exact rank_le_top hm h6 h8 (by rw [h7]; exact htop)
    · have := rank_le_top hm h6 h8 (by rw [h7]; exact htop)
      omega
  | done => exact absurd ha (by simp [act])

/-- The invariant of concurrent calls: `bs` bounds the accesses that are left. -/
structure FindInv (n : Nat) (rs : List Nat) (rep : Nat → Nat) (starts : List Nat) (total k : Nat)
    (c : Config (fun _ : Nat => Nat) (Option Nat)) : Prop where
  inv : UF.Inv n (parentsOf n c.2) rs rep
  len : c.1.length = starts.length
  calls : ∃ bs : List Nat, bs.length = starts.length ∧ k + bs.sum ≤ total ∧
    ∀ (i b : Nat) (p : Prog (fun _ : Nat => Nat) (Option Nat)) (a top : Nat), bs[i]? = some b → c.1[i]? = some p → starts[i]? = some a → rs[rep a]? = some top →
      FindState n rs rep a top b p

theorem sum_set_le : ∀ (bs : List Nat) (i b b' : Nat), bs[i]? = some b → b' + 1 ≤ b →
    (bs.set i b').sum + 1 ≤ bs.sum := by
  intro bs
  induction bs with
  | nil => intro i b b' h; simp at h
  | cons x bs ih =>
    intro i b b' h hb
    cases i with
    | zero => simp at h; subst h; simp; omega
    | succ i =>
      simp only [List.getElem?_cons_succ] at h
      have := ih i b b' h hb
      simp only [List.set_cons_succ, List.sum_cons]
      omega

theorem FindInv.step {n : Nat} {rs : List Nat} {rep : Nat → Nat} {starts : List Nat} {total k : Nat}
    (hs : ∀ a ∈ starts, a < n) {c d : Config (fun _ : Nat => Nat) (Option Nat)}
    (hc : FindInv n rs rep starts total k c) (h : Step c d) : FindInv n rs rep starts total (k + 1) d := by
  obtain ⟨i, p, p', hp, ha⟩ := h
  rename_i ts m m'
  obtain ⟨bs, hl, hsum, hall⟩ := hc.calls
  have hi : i < ts.length := (List.getElem?_eq_some_iff.1 hp).1
  have hi' : i < starts.length := hc.len ▸ hi
  have hst : starts[i]? = some starts[i] := List.getElem?_eq_getElem hi'
  have hsn : starts[i] < n := hs _ (List.getElem_mem hi')
  have hbs : bs[i]? = some (bs[i]'(hl ▸ hi')) := List.getElem?_eq_getElem _
  obtain ⟨top, htop⟩ := hc.inv.exists_rank (hc.inv.rep_lt hsn)
  obtain ⟨hinv, b', hb', hstate⟩ := (hall i _ p _ top hbs hp hst htop).step hc.inv htop ha
  refine ⟨hinv, by simpa using hc.len, bs.set i b', by simpa using hl, ?_, ?_⟩
  · have := sum_set_le bs i _ b' hbs hb'
    omega
  · intro j b q a t h1 h2 h3 h4
    by_cases hj : j = i
    · subst hj
      rw [List.getElem?_set_self (hl ▸ hi')] at h1
      rw [List.getElem?_set_self hi] at h2
      rw [hst] at h3
      cases Option.some.inj h1
      cases Option.some.inj h2
      cases Option.some.inj h3
      rw [htop] at h4
      cases Option.some.inj h4
      exact hstate
    · rw [List.getElem?_set_ne (Ne.symm hj)] at h1 h2
      exact hall j b q a t h1 h2 h3 h4

theorem FindInv.init {n : Nat} {rs : List Nat} {rep : Nat → Nat} {starts : List Nat} {fuel : Nat}
    {m : Mem fun _ : Nat => Nat} (hm : UF.Inv n (parentsOf n m) rs rep) (hs : ∀ a ∈ starts, a < n)
    (hf : Nat.log 2 n < fuel) :
    FindInv n rs rep starts (starts.length * (4 * fuel)) 0 (starts.map (findProg fuel), m) := by
  refine ⟨hm, by simp, List.replicate starts.length (4 * fuel), by simp, by simp, ?_⟩
  intro i b p a top h1 h2 h3 h4
  simp only [List.getElem?_map, h3, Option.map_some, Option.some.injEq] at h2
  subst h2
  rw [List.getElem?_replicate] at h1
  have ha := hs a (List.mem_of_getElem? h3)
  obtain ⟨r, hr⟩ := hm.exists_rank ha
  have h5 := hm.rank_root_le_log ha h4
  have h6 : ((Finset.range n).filter (fun j => rep j = rep a)).card ≤ n :=
    (Finset.card_filter_le _ _).trans (Finset.card_range n).le
  have h7 := Nat.log_mono_right (b := 2) h6
  split at h1
  · rw [← Option.some.inj h1]
    exact .loop fuel a r ha rfl hr (rank_le_top hm ha hr h4) (by omega)
  · simp at h1

theorem FindInv.steps {n : Nat} {rs : List Nat} {rep : Nat → Nat} {starts : List Nat} {fuel : Nat}
    {m : Mem fun _ : Nat => Nat} (hm : UF.Inv n (parentsOf n m) rs rep) (hs : ∀ a ∈ starts, a < n)
    (hf : Nat.log 2 n < fuel) {k : Nat} {c : Config (fun _ : Nat => Nat) (Option Nat)}
    (h : Steps k (starts.map (findProg fuel), m) c) :
    FindInv n rs rep starts (starts.length * (4 * fuel)) k c := by
  generalize hc0 : (starts.map (findProg fuel), m) = c0 at h
  induction h with
  | refl c => subst hc0; exact FindInv.init hm hs hf
  | tail _ hst ih => exact (ih hc0).step hs hst

end Verif.Parallel
