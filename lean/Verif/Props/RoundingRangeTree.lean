import Verif.Lemmas.BoruvkaStuck
import Verif.Props.RoundingRange
import Verif.Props.RoundingTree

/-
Property C123: Borůvka's algorithm and the core distances in a floating format of bounded range.
-/

namespace Verif.Rounding

open Verif.KDTree Verif.Search Verif.Buffer Verif.Sorting Verif.Boruvka Verif.Graph Verif.ClosestPair
  Verif.Rank

set_option linter.unusedSectionVars false

/-! ### counting -/

/-- Edges of a spanning tree that are independent modulo `G` are at most as many as the edges outside of `G`
of any connecting set. -/
theorem counts_le {D : Type} {n : Nat} (hn : 0 < n) {G : Nat → Nat → Prop} {b1 b2 : Edge D → Bool}
    {T S : List (Edge D)} (hT : ∀ e ∈ T, e.1 < n ∧ e.2.1 < n) (hind : Indep G (T.filter b1))
    (hSc : Connects n S) (hS : ∀ e ∈ S, b2 e = false → G e.1 e.2.1) :
    (T.filter b1).length ≤ (S.filter b2).length := by
  refine indep_length_le hn _ _ (fun e he => hT e (List.mem_filter.1 he).1) hind ?_
  intro a b ha hb
  have h2 := hSc a b ha hb
  unfold Linked at h2
  refine Relation.EqvGen.rec (motive := fun a b _ => Conn _ _ a b) ?_ ?_ ?_ ?_ h2
  · rintro a b ⟨w, hw⟩
    cases hb2 : b2 (a, b, w) with
    | true => exact Conn.edge (w := w) (List.mem_filter.2 ⟨hw, hb2⟩)
    | false => exact Conn.base (hS _ hw hb2)
  · intro a; exact Conn.refl a
  · intro a b _ h; exact h.symm
  · intro a b c _ _ h h'; exact h.trans h'

/-- A finite total: all weights are finite. -/
theorem total_finite : ∀ (S : List (Edge (WithTop ℝ))) (W : ℝ), total S = (W : WithTop ℝ) →
    (∀ e ∈ S, ∃ w : ℝ, e.2.2 = (w : WithTop ℝ)) ∧ W = (S.map (fun e => e.2.2.untopD 0)).sum := by
  intro S
  induction S with
  | nil =>
    intro W h
    have : (0 : WithTop ℝ) = (W : WithTop ℝ) := h
    exact ⟨by simp, by simpa using (WithTop.coe_eq_coe.1 this).symm⟩
  | cons e S ih =>
    intro W h
    have h' : e.2.2 + total S = (W : WithTop ℝ) := h
    obtain ⟨a, b, ha, hb, hab⟩ := WithTop.add_eq_coe.1 h'
    obtain ⟨h1, h2⟩ := ih b hb.symm
    refine ⟨?_, ?_⟩
    · intro e' he'
      rcases List.mem_cons.1 he' with rfl | he'
      · exact ⟨a, ha.symm⟩
      · exact h1 e' he'
    · rw [List.map_cons, List.sum_cons, ← h2, ← ha, ← hab]
      rfl

theorem total_coe : ∀ (T : List (Edge (WithTop ℝ))), (∀ e ∈ T, e.2.2 < ⊤) →
    total T = (((T.map (fun e => e.2.2.untopD 0)).sum : ℝ) : WithTop ℝ) := by
  intro T
  induction T with
  | nil => intro _; rfl
  | cons e T ih =>
    intro h
    have h1 : total (e :: T) = e.2.2 + total T := rfl
    obtain ⟨w, hw⟩ := WithTop.ne_top_iff_exists.1 (h e (by simp)).ne
    rw [h1, ih (fun e he => h e (by simp [he])), List.map_cons, List.sum_cons, ← hw]
    rfl

/-- Borůvka's algorithm on any good tree with weights that may be infinite. -/
theorem makeTree_top {x : Nat → Nat → ℝ} {gap : ℝ → ℝ → WithTop ℝ} {dist : Nat → Nat → WithTop ℝ} {n : Nat}
    (hn : 0 < n) {near : WithTop ℝ → WithTop ℝ → Prop} {t : KDTree.Tree ℝ}
    (ht : GoodTree x x gap dist n near t)
    (hall : ∀ i, i < n → i ∈ t.indices) (hsymm : ∀ a b, dist a b = dist b a)
    (hnn : ∀ a b, 0 ≤ dist a b) {c slack : ℝ} (hc : 0 < c)
    (hnear : ∀ (d : ℝ) d', 0 ≤ d → near d d' → d' ≤ ((c * (d + slack) : ℝ) : WithTop ℝ))
    (hj : JoinedBelow n dist ⊤) {ord : Orders (WithTop ℝ)} (hord : ord.Valid) {k : Nat}
    (hk : k ≤ 1) {fuel : Nat} (hfuel : Nat.log 2 n < fuel) :
    ∃ T, makeTree x gap dist ⊤ t ord n k fuel = some T ∧
      IsSpanningTree n T ∧ (∀ e ∈ T, e.2.2 = dist e.1 e.2.1 ∧ e.2.2 < ⊤) ∧
      ∀ S : List (Edge (WithTop ℝ)), (∀ e ∈ S, e.1 < n ∧ e.2.1 < n) → Connects n S →
        (∀ e ∈ S, e.2.2 = dist e.1 e.2.1) → ∀ W : ℝ, total S = (W : WithTop ℝ) →
        total T ≤ ((c * (W + (n - 1 : ℕ) * slack) : ℝ) : WithTop ℝ) := by
  have hs : Setting x gap dist plainWeight dist ⊤ t n near (fun _ _ => False)
      (fun (s : WithTop ℝ) a b => a < n ∧ b < n ∧ dist a b < s)
      (fun s w => decide (s.map (fun r => c * (r + slack)) ≤ w)) := by
    refine ⟨ht, hall, fun _ _ _ _ => rfl, ?_, ?_, ?_, ?_⟩
    · intro r k hk hr hex
      obtain ⟨q, j, hq, hjn, hrq, hrj, hlt⟩ := exists_exit hj r hk hr hex
      refine ⟨q, hq, hrq, fun i _ _ hi => ?_⟩
      obtain ⟨d', h1, h2⟩ := hi j hjn hrj
      obtain ⟨w, hw⟩ := WithTop.ne_top_iff_exists.1 hlt.ne
      rw [← hw] at h1
      have h0 : 0 ≤ w := by
        have := hnn q j
        rw [← hw] at this
        exact_mod_cast this
      exact (h2.trans (hnear w d' h0 h1)).trans_lt (WithTop.coe_lt_top _)
    · rintro s a b ⟨h1, h2, h3⟩
      exact ⟨h2, h1, by rw [hsymm]; exact h3⟩
    · rintro s a b ⟨h1, h2, _⟩
      exact ⟨h1, h2⟩
    · rintro s w q i j d' _ _ _ _ hb h1 h2 h3 ⟨_, _, h4⟩
      have h5 := of_decide_eq_true hb
      obtain ⟨v, hv⟩ := WithTop.ne_top_iff_exists.1 (ne_top_of_lt h4)
      rw [← hv] at h2 h4
      have h0 : 0 ≤ v := by
        have := hnn q j
        rw [← hv] at this
        exact_mod_cast this
      have h6 := h5.trans (h1.trans (h3.trans (hnear v d' h0 h2)))
      induction s with
      | top => exact absurd (top_le_iff.1 h6) (WithTop.coe_ne_top)
      | coe s =>
        rw [WithTop.map_coe] at h6
        have h7 : c * (s + slack) ≤ c * (v + slack) := by exact_mod_cast h6
        have h8 : v < s := by exact_mod_cast h4
        have h9 : c * (v + slack) < c * (s + slack) := mul_lt_mul_of_pos_left (by linarith) hc
        linarith
  obtain ⟨f0, f', e0, e1, hT, hw, hind⟩ := makeLoop_tree hs hn (fun _ _ h => h.elim) hord fuel hfuel
  have hfin : ∀ e ∈ f'.mst, e.2.2 < ⊤ := by
    have h1 := indep_length_le hn _ [] (fun e he => hT.vertices e (List.mem_filter.1 he).1) (hind ⊤) (by
      intro a b ha hb
      have h2 := hj a b ha hb
      clear hb
      induction h2 with
      | refl => exact Conn.refl _
      | tail _ h3 ih => exact ih.trans (Conn.base h3))
    have h2 := List.length_eq_zero_iff.1 (Nat.le_zero.1 h1)
    intro e he
    by_contra htop
    have h3 : e ∈ f'.mst.filter (fun a => decide ((⊤ : WithTop ℝ).map (fun r => c * (r + slack)) ≤ a.2.2)) :=
      List.mem_filter.2 ⟨he, by simpa using htop⟩
    rw [h2] at h3
    simp at h3
  refine ⟨f'.mst, ?_, hT, fun e he => ⟨hw e he, hfin e he⟩, ?_⟩
  · simp only [makeTree, e0, Option.bind_eq_bind, Option.bind_some, if_neg (by omega : ¬ k > 1), e1]
  · intro S hSv hSc hSw W hW
    obtain ⟨hSf, rfl⟩ := total_finite S W hW
    rw [total_coe _ hfin, WithTop.coe_le_coe]
    have hlen : f'.mst.length = n - 1 := by have := hT.length; omega
    have key : ((f'.mst.map (fun e => e.2.2.untopD 0 / c - slack)).sum : ℝ) ≤
        (S.map (fun e => e.2.2.untopD 0)).sum := by
      refine sum_le_of_counts (n - 1) _ _ (by simp [hlen]) ?_ ?_
      · intro b hb
        obtain ⟨e, he, rfl⟩ := List.mem_map.1 hb
        obtain ⟨w, hw'⟩ := hSf e he
        have := hnn e.1 e.2.1
        rw [← hSw e he, hw'] at this
        rw [hw']
        exact_mod_cast this
      · intro s
        have h1 := counts_le hn (b2 := fun e => decide ((s : WithTop ℝ) ≤ e.2.2)) hT.vertices (hind s) hSc
          (fun e he h => ⟨(hSv e he).1, (hSv e he).2, by
            rw [← hSw e he]; exact not_le.1 (of_decide_eq_false h)⟩)
        rw [List.filter_map, List.length_map, List.filter_map, List.length_map]
        refine le_trans (le_of_eq ?_) (le_trans h1 (le_of_eq ?_))
        · congr 1
          apply List.filter_congr
          intro e he
          obtain ⟨w, hw'⟩ := WithTop.ne_top_iff_exists.1 (hfin e he).ne
          simp only [Function.comp, ← hw', WithTop.untopD_coe, WithTop.map_coe, WithTop.coe_le_coe]
          congr 1
          exact propext (by rw [le_sub_iff_add_le, le_div_iff₀ hc, mul_comm])
        · congr 1
          apply List.filter_congr
          intro e he
          obtain ⟨w, hw'⟩ := hSf e he
          simp only [Function.comp, hw', WithTop.untopD_coe, WithTop.coe_le_coe]
    have h2 : ∀ T : List (Edge (WithTop ℝ)), (T.map (fun e => e.2.2.untopD 0 / c - slack)).sum =
        (T.map (fun e => e.2.2.untopD 0)).sum / c - T.length * slack := by
      intro T
      induction T with
      | nil => simp
      | cons e T ih =>
        simp only [List.map_cons, List.sum_cons, List.length_cons, ih]
        push_cast
        ring
    rw [h2, hlen, sub_le_iff_le_add, div_le_iff₀ hc, mul_comm] at key
    exact key

/-! ### trees in the bounded format -/

variable {p : Nat} {emax : ℤ} (R : RoundingE p emax)

theorem distsE_comm (hp : 1 ≤ p) (hE : 2 ≤ emax) (o : Order) (x : Nat → Nat → ℝ) (i j : Nat) :
    distsE R o x i j = distsE R o x j i := distE_comm R hp hE o _ _

theorem distsE_nonneg (hp : 1 ≤ p) (hE : 2 ≤ emax) (o : Order) (x : Nat → Nat → ℝ) (i j : Nat) :
    0 ≤ distsE R o x i j := by
  unfold distsE
  rw [distE_eq R hp hE]
  split
  · have := R.nonneg (Real.sqrt_nonneg (sumU R o (x j) (x i)))
    exact_mod_cast this
  · exact le_top

/-- What pruning may cost on one computed distance. -/
def NearE (p : Nat) (emax : ℤ) (eps : ℝ) (d d' : WithTop ℝ) : Prop :=
  d' ≤ d ∨ ∀ D : ℝ, d = (D : WithTop ℝ) →
    d' ≤ (((1 + unit p) ^ 2 * (max D ((2 : ℝ) ^ (1 - emax / 2)) + 2 * eps) : ℝ) : WithTop ℝ)

theorem NearE.le {eps : ℝ} (he : 0 ≤ eps) {d : ℝ} {d' : WithTop ℝ} (hd : 0 ≤ d)
    (h : NearE p emax eps d d') :
    d' ≤ (((1 + unit p) ^ 2 * (max d ((2 : ℝ) ^ (1 - emax / 2)) + 2 * eps) : ℝ) : WithTop ℝ) := by
  rcases h with h | h
  · refine h.trans ?_
    have h1 : 1 ≤ (1 + unit p) ^ 2 := one_le_pow₀ one_le_f
    have h2 := le_max_left d ((2 : ℝ) ^ (1 - emax / 2))
    have h3 : d ≤ (1 + unit p) ^ 2 * (max d ((2 : ℝ) ^ (1 - emax / 2)) + 2 * eps) := by nlinarith
    exact_mod_cast h3
  · exact h d rfl

theorem goodTree_E (hp : 1 ≤ p) (hE : (p : ℤ) + 1 ≤ emax) (h4 : 4 ≤ emax) (heven : Even emax) {eps : ℝ}
    (he : 0 ≤ eps) (he1 : eps ≤ 1) {nf n : Nat} {x : Nat → Nat → ℝ} (hx : ∀ i a, IsFloatE p emax (x i a))
    {o : Order} (ho : o.Sums nf) {t : KDTree.Tree ℝ}
    (hs : t.SplitBy (fun a i p' => x i a ≤ x p' a + 2 * (eps * (1 + unit p)))
      (fun a p' i => x p' a ≤ x i a + 2 * (eps * (1 + unit p)))) (ha : t.AxesLt nf)
    (hv : ∀ i ∈ t.indices, i < n) :
    GoodTree x x (gapE R) (distsE R o x) n (NearE p emax eps) t where
  valid := hv
  refl := fun d => Or.inl (le_refl d)
  prune := by
    refine ⟨_, _, splitBy_axes hs ha, ?_⟩
    intro q r rep
    refine pruneOk_E R hp hE h4 heven he he1 hx (hx q) (o := fun _ => o) (fun _ => ho) ?_
    intro i d h
    split at h
    · simp at h
    · simp only [candAll, Option.some.injEq] at h
      rw [← h, distsE]

theorem goodTree_sepE (hp : 1 ≤ p) (hE : (p : ℤ) + 1 ≤ emax) (heven : Even emax)
    {nf n : Nat} {x : Nat → Nat → ℝ} {o : Order} (ho : o.Sums nf) {t : KDTree.Tree ℝ}
    (hs : t.SplitBy (fun a i p' => x i a ≤ x p' a + 2 * 0)
      (fun a p' i => x p' a ≤ x i a + 2 * 0)) (ha : t.AxesLt nf)
    (hv : ∀ i ∈ t.indices, i < n) :
    GoodTree x x (gapE R) (distsE R o x) n Eq t where
  valid := hv
  refl := fun _ => rfl
  prune := by
    refine ⟨_, _, splitBy_axes hs ha, ?_⟩
    intro q r rep
    refine pruneOk_sepE R hp hE heven (o := fun _ => o) (fun _ => ho) ?_
    intro i d h
    split at h
    · simp at h
    · simp only [candAll, Option.some.injEq] at h
      rw [← h, distsE]

theorem make_E (hp : 1 ≤ p) {eps : ℝ} (he : 0 ≤ eps) (nf : Nat) (x : Nat → Nat → ℝ)
    (hx : ∀ i a, IsFloatE p emax (x i a))
    (policy : List Nat → Nat → Box ℝ → Nat) (bucketSize maxDepth : Nat)
    (hpol : ∀ idx d box, policy idx d box < nf) (vmax vlowest : ℝ) (idx : List Nat) :
    ∃ idx' t, make (eqE R eps) x policy bucketSize maxDepth nf vmax vlowest idx = some (idx', t) ∧
      idx'.Perm idx ∧ t.indices = idx' ∧
      t.SplitBy (fun a i p' => x i a ≤ x p' a + 2 * (eps * (1 + unit p)))
        (fun a p' i => x p' a ≤ x i a + 2 * (eps * (1 + unit p))) ∧ t.AxesLt nf := by
  obtain ⟨idx', t, e, hpm, hi, _, hs, _, ha, _⟩ :=
    make_tol (goodEq_eqE R he) (eps * (1 + unit p))
      (mul_nonneg he (by linarith [one_le_f (p := p)])) x
      (fun a i j h => eqE_tol R hp (hx i a) (hx j a) h) policy bucketSize maxDepth nf hpol vmax vlowest idx
  exact ⟨idx', t, e, hpm, hi, hs, ha⟩

theorem make_sepE {eps : ℝ} (he : 0 ≤ eps) (nf : Nat) (x : Nat → Nat → ℝ)
    (hsep : ∀ a i j, x i a = x j a ∨ eqE R eps (x i a) (x j a) = false)
    (policy : List Nat → Nat → Box ℝ → Nat) (bucketSize maxDepth : Nat)
    (hpol : ∀ idx d box, policy idx d box < nf) (vmax vlowest : ℝ) (idx : List Nat) :
    ∃ idx' t, make (eqE R eps) x policy bucketSize maxDepth nf vmax vlowest idx = some (idx', t) ∧
      idx'.Perm idx ∧ t.indices = idx' ∧
      t.SplitBy (fun a i p' => x i a ≤ x p' a + 2 * 0) (fun a p' i => x p' a ≤ x i a + 2 * 0) ∧
      t.AxesLt nf := by
  obtain ⟨idx', t, e, hpm, hi, _, hs, _, ha, _⟩ :=
    make_tol (goodEq_eqE R he) 0 (le_refl _) x (fun a i j h => by
      rcases hsep a i j with h' | h'
      · simp [h']
      · rw [h'] at h
        exact absurd h (by simp)) policy bucketSize maxDepth nf hpol vmax vlowest idx
  exact ⟨idx', t, e, hpm, hi, hs, ha⟩

/-- **C123.** In a format with overflow and gradual underflow, when the samples are joined by pairs at a finite
computed distance, `make_tree` (one nearest neighbour) ends within `log2 n` rounds and returns a spanning tree
weighted with the computed distances, all finite; its weight exceeds that of any other connecting set of edges
by at most the factor `(1 + u) ^ 2` and `2 * eps + 2 ^ (1 - emax / 2)` per edge. -/
theorem C123_spanning_tree (hp : 1 ≤ p) (hE : (p : ℤ) + 1 ≤ emax) (h4 : 4 ≤ emax) (heven : Even emax)
    (n : Nat) (hn : 0 < n) (eps : ℝ) (he : 0 ≤ eps) (he1 : eps ≤ 1) (nf : Nat) (x : Nat → Nat → ℝ)
    (hx : ∀ i a, IsFloatE p emax (x i a)) (o : Order) (ho : o.Sums nf)
    (policy : List Nat → Nat → Box ℝ → Nat) (bucketSize maxDepth : Nat)
    (hpol : ∀ idx d box, policy idx d box < nf) (vmax vlowest : ℝ)
    (hj : JoinedBelow n (distsE R o x) ⊤)
    (ord : Orders (WithTop ℝ)) (hord : ord.Valid) (k : Nat) (hk : k ≤ 1) :
    ∃ idx' t T, make (eqE R eps) x policy bucketSize maxDepth nf vmax vlowest (List.range n) =
        some (idx', t) ∧
      (∀ fuel, Nat.log 2 n + 1 ≤ fuel →
        makeTree x (gapE R) (distsE R o x) ⊤ t ord n k fuel = some T) ∧
      IsSpanningTree n T ∧ (∀ e ∈ T, e.2.2 = distsE R o x e.1 e.2.1 ∧ e.2.2 < ⊤) ∧
      ∀ S : List (Edge (WithTop ℝ)), (∀ e ∈ S, e.1 < n ∧ e.2.1 < n) → Connects n S →
        (∀ e ∈ S, e.2.2 = distsE R o x e.1 e.2.1) → ∀ W : ℝ, total S = (W : WithTop ℝ) →
        total T ≤ (((1 + unit p) ^ 2 *
          (W + (n - 1 : ℕ) * (2 * eps + (2 : ℝ) ^ (1 - emax / 2))) : ℝ) : WithTop ℝ) := by
  obtain ⟨idx', t, e, hpm, hi, hs, ha⟩ :=
    make_E R hp he nf x hx policy bucketSize maxDepth hpol vmax vlowest (List.range n)
  have hmem : ∀ i, i ∈ t.indices ↔ i < n := fun i => by rw [hi, hpm.mem_iff, List.mem_range]
  have hf : 0 < (1 + unit p) ^ 2 := pow_pos (by linarith [one_le_f (p := p)]) 2
  obtain ⟨T, h1, h2⟩ := makeTree_top hn
    (goodTree_E R hp hE h4 heven he he1 hx ho hs ha (fun i h => (hmem i).1 h))
    (fun i h => (hmem i).2 h) (distsE_comm R hp (by omega) o x) (distsE_nonneg R hp (by omega) o x)
    hf (slack := 2 * eps + (2 : ℝ) ^ (1 - emax / 2)) (fun d d' hd h => by
      refine (h.le he hd).trans ?_
      have h3 : max d ((2 : ℝ) ^ (1 - emax / 2)) ≤ d + (2 : ℝ) ^ (1 - emax / 2) :=
        max_le (by linarith [two_zpow_pos (1 - emax / 2)]) (by linarith)
      have h5 := mul_le_mul_of_nonneg_left
        (show max d ((2 : ℝ) ^ (1 - emax / 2)) + 2 * eps ≤ d + (2 * eps + (2 : ℝ) ^ (1 - emax / 2)) by
          linarith) hf.le
      exact_mod_cast h5) hj hord hk (Nat.lt_succ_self _)
  exact ⟨idx', t, T, e, fun fuel hf => makeTree_mono hf h1, h2⟩

/-- **C123**, data whose coordinates on each axis are equal or not equal for `common::equality`: a minimum
spanning tree for the computed distances, exactly, although some of them may have underflowed or overflowed. -/
theorem C123_minimal_separated (hp : 1 ≤ p) (hE : (p : ℤ) + 1 ≤ emax) (heven : Even emax)
    (n : Nat) (hn : 0 < n) (eps : ℝ) (he : 0 ≤ eps) (nf : Nat) (x : Nat → Nat → ℝ) (o : Order)
    (ho : o.Sums nf) (hsep : ∀ a i j, x i a = x j a ∨ eqE R eps (x i a) (x j a) = false)
    (policy : List Nat → Nat → Box ℝ → Nat) (bucketSize maxDepth : Nat)
    (hpol : ∀ idx d box, policy idx d box < nf) (vmax vlowest : ℝ)
    (hj : JoinedBelow n (distsE R o x) ⊤)
    (ord : Orders (WithTop ℝ)) (hord : ord.Valid) (k : Nat) (hk : k ≤ 1) :
    ∃ idx' t T, make (eqE R eps) x policy bucketSize maxDepth nf vmax vlowest (List.range n) =
        some (idx', t) ∧
      (∀ fuel, Nat.log 2 n + 1 ≤ fuel →
        makeTree x (gapE R) (distsE R o x) ⊤ t ord n k fuel = some T) ∧
      IsSpanningTree n T ∧ (∀ e ∈ T, e.2.2 = distsE R o x e.1 e.2.1 ∧ e.2.2 < ⊤) ∧
      ∀ S : List (Edge (WithTop ℝ)), (∀ e ∈ S, e.1 < n ∧ e.2.1 < n) → Connects n S →
        (∀ e ∈ S, e.2.2 = distsE R o x e.1 e.2.1) → total T ≤ total S := by
  obtain ⟨idx', t, e, hpm, hi, hs, ha⟩ :=
    make_sepE R he nf x hsep policy bucketSize maxDepth hpol vmax vlowest (List.range n)
  have hmem : ∀ i, i ∈ t.indices ↔ i < n := fun i => by rw [hi, hpm.mem_iff, List.mem_range]
  obtain ⟨T, h1, h2, h3, h4⟩ := makeTree_top hn
    (goodTree_sepE R hp hE heven ho hs ha (fun i h => (hmem i).1 h))
    (fun i h => (hmem i).2 h) (distsE_comm R hp (by omega) o x) (distsE_nonneg R hp (by omega) o x)
    one_pos (slack := 0) (fun d d' hd h => by rw [← h]; simp) hj hord hk (Nat.lt_succ_self _)
  refine ⟨idx', t, T, e, fun fuel hf => makeTree_mono hf h1, h2, h3, fun S a1 a2 a3 => ?_⟩
  cases hS : total S with
  | top => exact le_top
  | coe W => simpa using h4 S a1 a2 a3 W hS

theorem mapM_length {A B : Type} {f : A → Option B} : ∀ (l : List A) (rs : List B),
    l.mapM f = some rs → rs.length = l.length := by
  intro l
  induction l with
  | nil => intro rs h; simp at h; simp [← h]
  | cons a l ih =>
    intro rs h
    simp only [List.mapM_cons, Option.bind_eq_bind, Option.bind_eq_some_iff, Option.pure_def,
      Option.some.injEq] at h
    obtain ⟨b, _, bs, h2, rfl⟩ := h
    simp [ih bs h2]

/-! ### core distances -/

/-- **C123**, core distances, separated data: the exact `k`-th smallest of the computed distances, which may be
zero or infinite. -/
theorem C123_core_separated (hp : 1 ≤ p) (hE : (p : ℤ) + 1 ≤ emax) (heven : Even emax)
    (n : Nat) (hn : 0 < n) (eps : ℝ) (he : 0 ≤ eps) (nf : Nat) (x : Nat → Nat → ℝ) (o : Order)
    (ho : o.Sums nf) (hsep : ∀ a i j, x i a = x j a ∨ eqE R eps (x i a) (x j a) = false)
    (policy : List Nat → Nat → Box ℝ → Nat) (bucketSize maxDepth : Nat)
    (hpol : ∀ idx d box, policy idx d box < nf) (vmax vlowest : ℝ) (inf : WithTop ℝ)
    (k : Nat) (hk : 1 ≤ k) (hk2 : k < 2 ^ 64) :
    ∃ idx' t core, make (eqE R eps) x policy bucketSize maxDepth nf vmax vlowest (List.range n) =
        some (idx', t) ∧
      coreDistances x (gapE R) (distsE R o x) inf t n k = some core ∧ core.length = n ∧
      ∀ q, q < n → ∃ v, core[q]? = some v ∧
        IsKth (min k n) ((List.range n).map (distsE R o x q)) v := by
  obtain ⟨idx', t, e, hpm, hi, hs, ha⟩ :=
    make_sepE R he nf x hsep policy bucketSize maxDepth hpol vmax vlowest (List.range n)
  obtain ⟨core, h1, h2, h3⟩ := coreDistances_of (P := fun q v =>
      IsKth (min k n) ((List.range n).map (distsE R o x q)) v) (fun q _ => by
    obtain ⟨v, a1, a2, a3, a4⟩ := coreDistance_near hn (fun _ => rfl) (splitBy_axes hs ha)
      (pruneOk_sepE R hp hE heven (o := fun _ => o) (fun _ => ho)
        (fun i d h => by
          simp only [candAll, Option.some.injEq] at h
          rw [← h, distsE])) inf (dist := distsE R o x) (by rw [hi]; exact hpm) hk hk2 (q := q)
    exact ⟨v, a1, a2, a3, a4 _ (fun a d' h h' => by rw [← h']; simpa using h)⟩)
  exact ⟨idx', t, core, e, h1, h2, h3⟩

/-- **C123**, core distances, any data of the format: at least `k` computed distances are at most the core
distance and fewer than `k` are certainly below it. -/
theorem C123_core (hp : 1 ≤ p) (hE : (p : ℤ) + 1 ≤ emax) (h4 : 4 ≤ emax) (heven : Even emax)
    (n : Nat) (hn : 0 < n) (eps : ℝ) (he : 0 ≤ eps) (he1 : eps ≤ 1) (nf : Nat) (x : Nat → Nat → ℝ)
    (hx : ∀ i a, IsFloatE p emax (x i a)) (o : Order) (ho : o.Sums nf)
    (policy : List Nat → Nat → Box ℝ → Nat) (bucketSize maxDepth : Nat)
    (hpol : ∀ idx d box, policy idx d box < nf) (vmax vlowest : ℝ) (inf : WithTop ℝ)
    (k : Nat) (hk : 1 ≤ k) (hk2 : k < 2 ^ 64) :
    ∃ idx' t core, make (eqE R eps) x policy bucketSize maxDepth nf vmax vlowest (List.range n) =
        some (idx', t) ∧
      coreDistances x (gapE R) (distsE R o x) inf t n k = some core ∧ core.length = n ∧
      ∀ q, q < n → ∃ v, core[q]? = some v ∧ v ∈ (List.range n).map (distsE R o x q) ∧
        min k n ≤ (((List.range n).map (distsE R o x q)).filter (fun a => a ≤ v)).length ∧
        (((List.range n).map (distsE R o x q)).filter (fun a =>
          a.map (fun D => (1 + unit p) ^ 2 * (max D ((2 : ℝ) ^ (1 - emax / 2)) + 2 * eps)) < v)).length <
          min k n := by
  obtain ⟨idx', t, e, hpm, hi, hs, ha⟩ :=
    make_E R hp he nf x hx policy bucketSize maxDepth hpol vmax vlowest (List.range n)
  obtain ⟨core, h1, h2, h3⟩ := coreDistances_of (P := fun q v =>
      v ∈ (List.range n).map (distsE R o x q) ∧
        min k n ≤ (((List.range n).map (distsE R o x q)).filter (fun a => a ≤ v)).length ∧
        (((List.range n).map (distsE R o x q)).filter (fun a =>
          a.map (fun D => (1 + unit p) ^ 2 * (max D ((2 : ℝ) ^ (1 - emax / 2)) + 2 * eps)) < v)).length <
          min k n) (fun q _ => by
    obtain ⟨v, a1, a2, a3, a4⟩ := coreDistance_near hn (near := NearE p emax eps)
      (fun d => Or.inl (le_refl d)) (splitBy_axes hs ha)
      (pruneOk_E R hp hE h4 heven he he1 hx (hx q) (o := fun _ => o) (fun _ => ho)
        (fun i d h => by
          simp only [candAll, Option.some.injEq] at h
          rw [← h, distsE])) inf (dist := distsE R o x) (by rw [hi]; exact hpm) hk hk2 (q := q)
    refine ⟨v, a1, a2, a3, ?_⟩
    refine lt_of_le_of_lt (le_of_eq ?_) (a4 (fun a => decide (0 ≤ a ∧
      a.map (fun D => (1 + unit p) ^ 2 * (max D ((2 : ℝ) ^ (1 - emax / 2)) + 2 * eps)) < v))
      (fun a d' h h' => ?_))
    · congr 1
      refine List.filter_congr fun a ha => ?_
      obtain ⟨j, _, rfl⟩ := List.mem_map.1 ha
      have := distsE_nonneg R hp (by omega) o x q j
      simp [this]
    · obtain ⟨b1, b2⟩ := of_decide_eq_true h
      cases a with
      | top => exact absurd b2 (by simp)
      | coe a =>
        have b0 : 0 ≤ a := by exact_mod_cast b1
        exact (h'.le he b0).trans_lt b2)
  exact ⟨idx', t, core, e, h1, h2, h3⟩

/-! ### when overflow separates the samples -/

/-- **C123**, when the samples are not joined by pairs at a finite computed distance: `make_tree` never ends,
whatever the neighbour count: only pairs below `infinity` replace the default edge (0, 0), which joins
nothing. -/
theorem C123_never_ends (hp : 1 ≤ p) (hE : (p : ℤ) + 1 ≤ emax) (h4 : 4 ≤ emax) (heven : Even emax)
    (n : Nat) (eps : ℝ) (he : 0 ≤ eps) (he1 : eps ≤ 1) (nf : Nat) (x : Nat → Nat → ℝ)
    (hx : ∀ i a, IsFloatE p emax (x i a)) (o : Order) (ho : o.Sums nf)
    (policy : List Nat → Nat → Box ℝ → Nat) (bucketSize maxDepth : Nat)
    (hpol : ∀ idx d box, policy idx d box < nf) (vmax vlowest : ℝ)
    (hj : ¬ JoinedBelow n (distsE R o x) ⊤)
    (ord : Orders (WithTop ℝ)) (hord : ord.Valid) (k : Nat) :
    ∃ idx' t, make (eqE R eps) x policy bucketSize maxDepth nf vmax vlowest (List.range n) =
        some (idx', t) ∧
      ∀ fuel, makeTree x (gapE R) (distsE R o x) ⊤ t ord n k fuel = none := by
  have hn : 0 < n := by
    by_contra h0
    exact hj (fun a b ha _ => by omega)
  obtain ⟨idx', t, e, hpm, hi, hs, ha⟩ :=
    make_E R hp he nf x hx policy bucketSize maxDepth hpol vmax vlowest (List.range n)
  have hmem : ∀ i, i ∈ t.indices ↔ i < n := fun i => by rw [hi, hpm.mem_iff, List.mem_range]
  have ht := goodTree_E R hp hE h4 heven he he1 hx ho hs ha (n := n) (fun i h => (hmem i).1 h)
  obtain ⟨f0, e0, h0, hm0⟩ := FInv.init (D := WithTop ℝ) (n := n) hn
  refine ⟨idx', t, e, fun fuel => ?_⟩
  simp only [makeTree, e0, Option.bind_eq_bind, Option.bind_some]
  by_cases hk : k > 1
  · rw [if_pos hk]
    cases hc : coreDistances x (gapE R) (distsE R o x) ⊤ t n k with
    | none => rfl
    | some core =>
      have hlen : core.length = n := by
        have := mapM_length _ _ hc
        simpa using this
      cases hl : makeLoop x (gapE R) (distsE R o x) (mutualReach core) ⊤ t ord fuel 0 f0 with
      | none => simp [hl]
      | some f' =>
        refine absurd ?_ hj
        have := makeLoop_joined (wt := fun q i => max (max (core.getD q 0) (core.getD i 0))
          (distsE R o x q i)) ht (fun i h => (hmem i).2 h) (by
            intro q i hq hi
            have h1 : core[q]? = some (core.getD q 0) := by
              rw [List.getD_eq_getElem?_getD, List.getElem?_eq_getElem (by omega)]; rfl
            have h2 : core[i]? = some (core.getD i 0) := by
              rw [List.getD_eq_getElem?_getD, List.getElem?_eq_getElem (by omega)]; rfl
            simp only [mutualReach, h1, h2, Option.bind_eq_bind, Option.bind_some])
          (fun a b => by
            rw [distsE_comm R hp (by omega), max_comm (core.getD a 0)]) hord fuel 0 f0 f' id
          (h0.below hm0) hl
        intro a b ha hb
        have h3 := this a b ha hb
        clear hb
        induction h3 with
        | refl => exact Relation.ReflTransGen.refl
        | tail _ h ih => exact ih.tail ⟨h.1, h.2.1, (le_max_right _ _).trans_lt h.2.2⟩
  · rw [if_neg hk]
    cases hl : makeLoop x (gapE R) (distsE R o x) plainWeight ⊤ t ord fuel 0 f0 with
    | none => simp [hl]
    | some f' =>
      exact absurd (makeLoop_joined (wt := distsE R o x) ht (fun i h => (hmem i).2 h)
        (fun _ _ _ _ => rfl) (distsE_comm R hp (by omega) o x) hord fuel 0 f0 f' id (h0.below hm0) hl) hj

/-- **C123**, in the same situation: the loop of `make_tree` executes any number of rounds and two components or
more are left after them. -/
theorem C123_rounds (hp : 1 ≤ p) (hE : (p : ℤ) + 1 ≤ emax) (h4 : 4 ≤ emax) (heven : Even emax)
    (n : Nat) (eps : ℝ) (he : 0 ≤ eps) (he1 : eps ≤ 1) (nf : Nat) (x : Nat → Nat → ℝ)
    (hx : ∀ i a, IsFloatE p emax (x i a)) (o : Order) (ho : o.Sums nf)
    (policy : List Nat → Nat → Box ℝ → Nat) (bucketSize maxDepth : Nat)
    (hpol : ∀ idx d box, policy idx d box < nf) (vmax vlowest : ℝ)
    (hj : ¬ JoinedBelow n (distsE R o x) ⊤)
    (ord : Orders (WithTop ℝ)) (hord : ord.Valid) (k : Nat) (hk2 : k < 2 ^ 64) :
    ∃ idx' t weight f0, make (eqE R eps) x policy bucketSize maxDepth nf vmax vlowest (List.range n) =
        some (idx', t) ∧ Forest.init n = some f0 ∧
      (if k > 1 then ∃ core, coreDistances x (gapE R) (distsE R o x) ⊤ t n k = some core ∧
        weight = mutualReach core else weight = plainWeight) ∧
      ∀ m, ∃ f', rounds x (gapE R) (distsE R o x) weight ⊤ t ord m 0 f0 = some f' ∧ 1 < f'.comps.length := by
  have hn : 0 < n := by
    by_contra h0
    exact hj (fun a b ha _ => by omega)
  obtain ⟨idx', t, e, hpm, hi, hs, ha⟩ :=
    make_E R hp he nf x hx policy bucketSize maxDepth hpol vmax vlowest (List.range n)
  have hmem : ∀ i, i ∈ t.indices ↔ i < n := fun i => by rw [hi, hpm.mem_iff, List.mem_range]
  have ht := goodTree_E R hp hE h4 heven he he1 hx ho hs ha (n := n) (fun i h => (hmem i).1 h)
  obtain ⟨f0, e0, h0, hm0⟩ := FInv.init (D := WithTop ℝ) (n := n) hn
  by_cases hk : k > 1
  · obtain ⟨_, _, core, e', hc, hlen, _⟩ := C123_core R hp hE h4 heven n hn eps he he1 nf x hx o ho policy
      bucketSize maxDepth hpol vmax vlowest ⊤ k (by omega) hk2
    rw [e] at e'
    obtain ⟨rfl, rfl⟩ := Prod.mk.inj (Option.some.inj e')
    refine ⟨idx', t, mutualReach core, f0, e, e0, by rw [if_pos hk]; exact ⟨core, hc, rfl⟩, fun m => ?_⟩
    refine rounds_defined (wt := fun q i => max (max (core.getD q 0) (core.getD i 0))
      (distsE R o x q i)) ht (fun i h => (hmem i).2 h) (by
        intro q i hq hi
        have h1 : core[q]? = some (core.getD q 0) := by
          rw [List.getD_eq_getElem?_getD, List.getElem?_eq_getElem (by omega)]; rfl
        have h2 : core[i]? = some (core.getD i 0) := by
          rw [List.getD_eq_getElem?_getD, List.getElem?_eq_getElem (by omega)]; rfl
        simp only [mutualReach, h1, h2, Option.bind_eq_bind, Option.bind_some])
      (fun a b => by
        rw [distsE_comm R hp (by omega), max_comm (core.getD a 0)]) ?_ hord m 0 f0 id (h0.below hm0)
    refine fun this => hj fun a b ha hb => ?_
    have h3 := this a b ha hb
    clear hb
    induction h3 with
    | refl => exact Relation.ReflTransGen.refl
    | tail _ h ih => exact ih.tail ⟨h.1, h.2.1, (le_max_right _ _).trans_lt h.2.2⟩
  · refine ⟨idx', t, plainWeight, f0, e, e0, by rw [if_neg hk], fun m => ?_⟩
    exact rounds_defined (wt := distsE R o x) ht (fun i h => (hmem i).2 h)
      (fun _ _ _ _ => rfl) (distsE_comm R hp (by omega) o x) hj hord m 0 f0 id (h0.below hm0)

/-! ### concrete cases -/

/-- Two samples in double precision at distance `2 ^ 600`. -/
noncomputable def far (i _ : Nat) : ℝ := if i = 1 then (2 : ℝ) ^ (600 : ℤ) else 0

theorem far_isFloat (i a : Nat) : IsFloatE 53 1024 (far i a) := by
  unfold far
  split
  · exact isFloatE_zpow (by unfold emin; norm_num)
  · exact isFloatE_zero

theorem far_not_joined (R : RoundingE 53 1024) : ¬ JoinedBelow 2 (distsE R order1 far) ⊤ := by
  intro h
  have h1 : distsE R order1 far 0 1 = ⊤ := by
    have := (C122_overflow_counterexample R).1
    unfold distsE
    convert this using 2 <;> (funext a; simp [far])
  have h2 : ∀ b, Relation.ReflTransGen
      (fun i j => i < 2 ∧ j < 2 ∧ distsE R order1 far i j < ⊤) 0 b → b = 0 := by
    intro b hb
    induction hb with
    | refl => rfl
    | @tail c d _ hs ih =>
      subst ih
      by_contra hne
      have : d = 1 := by omega
      subst this
      rw [h1] at hs
      exact lt_irrefl _ hs.2.2
  exact absurd (h2 1 (h 0 1 (by omega) (by omega))) (by omega)

/-- **C123**, in double precision: on two samples `2 ^ 600` apart `make_tree` never ends, although their
distance is a number of the format. -/
theorem C123_overflow_counterexample (R : RoundingE 53 1024) (eps : ℝ) (he : 0 ≤ eps) (he1 : eps ≤ 1)
    (policy : List Nat → Nat → Box ℝ → Nat) (bucketSize maxDepth : Nat)
    (hpol : ∀ idx d box, policy idx d box < 1) (vmax vlowest : ℝ)
    (ord : Orders (WithTop ℝ)) (hord : ord.Valid) (k : Nat) :
    ∃ idx' t, make (eqE R eps) far policy bucketSize maxDepth 1 vmax vlowest (List.range 2) =
        some (idx', t) ∧
      ∀ fuel, makeTree far (gapE R) (distsE R order1 far) ⊤ t ord 2 k fuel = none :=
  C123_never_ends R (by norm_num) (by norm_num) (by norm_num) (by decide) 2 eps he he1 1 far far_isFloat
    order1 order1_sums policy bucketSize maxDepth hpol vmax vlowest (far_not_joined R) ord hord k

/-- Concrete case: five samples on a line in double precision, joined by finite distances. -/
example (x : Nat → Nat → ℝ) (hx : ∀ i a, IsFloatE 53 1024 (x i a))
    (hj : JoinedBelow 5 (distsE (awayE 53 1024 (by norm_num)) order1 x) ⊤)
    (ord : Orders (WithTop ℝ)) (hord : ord.Valid) :=
  C123_spanning_tree (awayE 53 1024 (by norm_num)) (by norm_num) (by norm_num) (by norm_num) (by decide) 5
    (by norm_num) (epsilon 53) (two_zpow_pos _).le
    (by unfold epsilon; exact zpow_le_one_of_nonpos₀ (by norm_num) (by norm_num)) 1 x hx order1 order1_sums
    (fun _ _ _ => 0) 1 10 (fun _ _ _ => by norm_num) 0 0 hj ord hord 1 (le_refl _)

end Verif.Rounding
