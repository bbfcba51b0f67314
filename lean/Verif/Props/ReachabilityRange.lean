import Verif.Props.RoundingRangeTree

/-
Property C127: the spanning tree of the mutual reachability distances in a floating format of bounded range.
-/

namespace Verif.Rounding

open Verif.KDTree Verif.Search Verif.Buffer Verif.Sorting Verif.Boruvka Verif.Graph Verif.ClosestPair
  Verif.Rank

set_option linter.unusedSectionVars false

/-! ### any weight above the distance -/

/-- The rounds of Borůvka's algorithm with weights that are finite wherever the distance is finite. -/
theorem makeLoop_top {x : Nat → Nat → ℝ} {gap : ℝ → ℝ → WithTop ℝ} {dist : Nat → Nat → WithTop ℝ} {n : Nat}
    (hn : 0 < n) {near : WithTop ℝ → WithTop ℝ → Prop} {t : KDTree.Tree ℝ}
    (ht : GoodTree x x gap dist n near t)
    (hall : ∀ i, i < n → i ∈ t.indices) (hsymm : ∀ a b, dist a b = dist b a)
    (hnn : ∀ a b, 0 ≤ dist a b) (hnear : ∀ (d : ℝ) d', 0 ≤ d → near d d' → d' < ⊤)
    {weight : Nat → Nat → WithTop ℝ → Option (WithTop ℝ)} {wt : Nat → Nat → WithTop ℝ}
    (hw : ∀ q i, q < n → i < n → weight q i (dist q i) = some (wt q i))
    (hle : ∀ q i, dist q i ≤ wt q i)
    (hfin : ∀ q i, q < n → i < n → dist q i < ⊤ → wt q i < ⊤)
    {M : Prop} {c slack : ℝ} (hc : 0 < c)
    (hM : M → ∀ q i d', ∀ v : ℝ, q < n → i < n → q ≠ i → 0 ≤ v → near v d' → dist q i ≤ d' →
      wt q i ≤ ((c * (v + slack) : ℝ) : WithTop ℝ))
    (hj : JoinedBelow n dist ⊤) {ord : Orders (WithTop ℝ)} (hord : ord.Valid)
    {fuel : Nat} (hfuel : Nat.log 2 n < fuel) :
    ∃ f0 f', Forest.init n = some f0 ∧
      makeLoop x gap dist weight ⊤ t ord fuel 0 f0 = some f' ∧
      IsSpanningTree n f'.mst ∧ (∀ e ∈ f'.mst, e.2.2 = wt e.1 e.2.1 ∧ e.2.2 < ⊤) ∧
      (M → ∀ S : List (Edge (WithTop ℝ)), (∀ e ∈ S, e.1 < n ∧ e.2.1 < n) → Connects n S →
        (∀ e ∈ S, e.2.2 = wt e.1 e.2.1) → ∀ W : ℝ, total S = (W : WithTop ℝ) →
        total f'.mst ≤ ((c * (W + (n - 1 : ℕ) * slack) : ℝ) : WithTop ℝ)) := by
  have hs : Setting x gap dist weight wt ⊤ t n near (fun _ _ => False)
      (fun (s : WithTop ℝ) a b => (M ∨ s = ⊤) ∧ a < n ∧ b < n ∧ dist a b < s)
      (fun s w => decide (s.map (fun r => c * (r + slack)) ≤ w)) := by
    refine ⟨ht, hall, hw, ?_, ?_, ?_, ?_⟩
    · intro r k hk hr hex
      obtain ⟨q, j, hq, hjn, hrq, hrj, hlt⟩ := exists_exit hj r hk hr hex
      refine ⟨q, hq, hrq, fun i hin _ hi => ?_⟩
      obtain ⟨d', h1, h2⟩ := hi j hjn hrj
      obtain ⟨w, hw⟩ := WithTop.ne_top_iff_exists.1 hlt.ne
      rw [← hw] at h1
      have h0 : 0 ≤ w := by
        have := hnn q j
        rw [← hw] at this
        exact_mod_cast this
      exact hfin q i hq hin (h2.trans_lt (hnear w d' h0 h1))
    · rintro s a b ⟨h0, h1, h2, h3⟩
      exact ⟨h0, h2, h1, by rw [hsymm]; exact h3⟩
    · rintro s a b ⟨_, h1, h2, _⟩
      exact ⟨h1, h2⟩
    · rintro s w q i j d' hq hi hne _ hb h1 h2 h3 ⟨hor, _, _, h4⟩
      have h5 := of_decide_eq_true hb
      obtain ⟨v, hv⟩ := WithTop.ne_top_iff_exists.1 (ne_top_of_lt h4)
      rw [← hv] at h2 h4
      have h0 : 0 ≤ v := by
        have := hnn q j
        rw [← hv] at this
        exact_mod_cast this
      induction s with
      | top =>
        have h6 := hfin q i hq hi (h3.trans_lt (hnear v d' h0 h2))
        exact absurd (top_le_iff.1 (h5.trans h1)) h6.ne
      | coe s =>
        have hMM : M := hor.resolve_right WithTop.coe_ne_top
        have h6 := h5.trans (h1.trans (hM hMM q i d' v hq hi hne h0 h2 h3))
        rw [WithTop.map_coe] at h6
        have h7 : c * (s + slack) ≤ c * (v + slack) := by exact_mod_cast h6
        have h8 : v < s := by exact_mod_cast h4
        have h9 : c * (v + slack) < c * (s + slack) := mul_lt_mul_of_pos_left (by linarith) hc
        linarith
  obtain ⟨f0, f', e0, e1, hT, hwt, hind⟩ := makeLoop_tree hs hn (fun _ _ h => h.elim) hord fuel hfuel
  have hfinT : ∀ e ∈ f'.mst, e.2.2 < ⊤ := by
    have h1 := indep_length_le hn _ [] (fun e he => hT.vertices e (List.mem_filter.1 he).1) (hind ⊤) (by
      intro a b ha hb
      have h2 := hj a b ha hb
      clear hb
      induction h2 with
      | refl => exact Conn.refl _
      | tail _ h3 ih => exact ih.trans (Conn.base ⟨Or.inr rfl, h3⟩))
    have h2 := List.length_eq_zero_iff.1 (Nat.le_zero.1 h1)
    intro e he
    by_contra htop
    have h3 : e ∈ f'.mst.filter (fun a => decide ((⊤ : WithTop ℝ).map (fun r => c * (r + slack)) ≤ a.2.2)) :=
      List.mem_filter.2 ⟨he, by simpa using htop⟩
    rw [h2] at h3
    simp at h3
  refine ⟨f0, f', e0, e1, hT, fun e he => ⟨hwt e he, hfinT e he⟩, ?_⟩
  intro hMM S hSv hSc hSw W hW
  obtain ⟨hSf, rfl⟩ := total_finite S W hW
  rw [total_coe _ hfinT, WithTop.coe_le_coe]
  have hlen : f'.mst.length = n - 1 := by have := hT.length; omega
  have key : ((f'.mst.map (fun e => e.2.2.untopD 0 / c - slack)).sum : ℝ) ≤
      (S.map (fun e => e.2.2.untopD 0)).sum := by
    refine sum_le_of_counts (n - 1) _ _ (by simp [hlen]) ?_ ?_
    · intro b hb
      obtain ⟨e, he, rfl⟩ := List.mem_map.1 hb
      obtain ⟨w, hw'⟩ := hSf e he
      have := (hnn e.1 e.2.1).trans (hle e.1 e.2.1)
      rw [← hSw e he, hw'] at this
      rw [hw']
      exact_mod_cast this
    · intro s
      have h1 := counts_le hn (b2 := fun e => decide ((s : WithTop ℝ) ≤ e.2.2)) hT.vertices (hind s) hSc
        (fun e he h => ⟨Or.inl hMM, (hSv e he).1, (hSv e he).2, by
          refine (hle e.1 e.2.1).trans_lt ?_
          rw [← hSw e he]; exact not_le.1 (of_decide_eq_false h)⟩)
      rw [List.filter_map, List.length_map, List.filter_map, List.length_map]
      refine le_trans (le_of_eq ?_) (le_trans h1 (le_of_eq ?_))
      · congr 1
        apply List.filter_congr
        intro e he
        obtain ⟨w, hw'⟩ := WithTop.ne_top_iff_exists.1 (hfinT e he).ne
        simp only [Function.comp, ← hw', WithTop.untopD_coe, WithTop.map_coe, WithTop.coe_le_coe]
        congr 1
        exact propext (by rw [le_sub_iff_add_le, le_div_iff₀ hc, mul_comm])
      · congr 1
        apply List.filter_congr
        intro e he
        obtain ⟨w, hw'⟩ := hSf e he
        simp only [Function.comp, hw', WithTop.untopD_coe, WithTop.coe_le_coe]
  have h2 : ∀ T : List (Edge (WithTop ℝ)), (T.map (fun e => e.2.2.untopD 0 / c - slack)).sum =
      (T.map (fun e => e.2.2.untopD 0)).sum / c - T.length * slack := by
    intro T
    induction T with
    | nil => simp
    | cons e T ih =>
      simp only [List.map_cons, List.sum_cons, List.length_cons, ih]
      push_cast
      ring
  rw [h2, hlen, sub_le_iff_le_add, div_le_iff₀ hc, mul_comm] at key
  exact key

/-! ### mutual reachability distances -/

variable {p : Nat} {emax : ℤ} (R : RoundingE p emax)

theorem distsE_self (hp : 1 ≤ p) (hE : 2 ≤ emax) (o : Order) (x : Nat → Nat → ℝ) (i : Nat) :
    distsE R o x i i = ((0 : ℝ) : WithTop ℝ) := by
  have hS : sumU R o (x i) (x i) = 0 := by
    unfold sumU
    have ht : ∀ k, termU R (x i) (x i) k = 0 := by
      intro k
      have : diffU R (x i) (x i) k = 0 := by
        cases k with
        | zero => simp [diffU]
        | succ k => simp [diffU, R.zero]
      rw [termU, this, mul_zero]
    induction o with
    | term k => simp [Order.evalU, ht, R.zero]
    | add a b iha ihb => simp [Order.evalU, iha, ihb, R.zero]
    | fma a k ih => simp [Order.evalU, ih, ht, R.zero]
  unfold distsE
  rw [distE_eq R hp hE, hS, if_pos (two_zpow_pos _), Real.sqrt_zero, R.zero]

/-- How many samples are at a finite computed distance of sample `q`, itself included. -/
noncomputable def inReach (o : Order) (x : Nat → Nat → ℝ) (n q : Nat) : Nat :=
  ((List.range n).filter (fun i => decide (distsE R o x q i < ⊤))).length

/-- A core distance is finite exactly when there are enough samples at a finite distance. -/
theorem core_finite {o : Order} {x : Nat → Nat → ℝ} {n q m : Nat} {eps : ℝ} {v : WithTop ℝ}
    (h1 : m ≤ (((List.range n).map (distsE R o x q)).filter (fun a => a ≤ v)).length)
    (h2 : (((List.range n).map (distsE R o x q)).filter (fun a =>
      a.map (fun D => (1 + unit p) ^ 2 * (max D ((2 : ℝ) ^ (1 - emax / 2)) + 2 * eps)) < v)).length < m) :
    v < ⊤ ↔ m ≤ inReach R o x n q := by
  rw [List.filter_map, List.length_map] at h1 h2
  constructor
  · intro hv
    refine h1.trans (List.Sublist.length_le (List.monotone_filter_right _ ?_))
    intro a ha
    simp only [Function.comp, decide_eq_true_eq] at ha ⊢
    exact ha.trans_lt hv
  · intro hm
    by_contra htop
    rw [not_lt_top_iff] at htop
    subst htop
    refine absurd (hm.trans_lt (lt_of_le_of_lt (List.Sublist.length_le
      (List.monotone_filter_right _ ?_)) h2)) (lt_irrefl _)
    intro a ha
    simp only [Function.comp, decide_eq_true_eq] at ha ⊢
    obtain ⟨w, hw⟩ := WithTop.ne_top_iff_exists.1 ha.ne
    rw [← hw, WithTop.map_coe]
    exact WithTop.coe_lt_top _

/-- **C127.** Format with overflow and gradual underflow, `k > 1` neighbours: when the samples are joined by pairs
at a finite computed distance and each has `k` samples (or all) at a finite computed distance, `make_tree` ends
within `log2 n` rounds with a spanning tree weighted with the mutual reachability distances, all finite.  With
`k = 2` the tree is, up to rounding, no heavier than any other connecting set of edges. -/
theorem C127_spanning_tree (hp : 1 ≤ p) (hE : (p : ℤ) + 1 ≤ emax) (h4 : 4 ≤ emax) (heven : Even emax)
    (n : Nat) (hn : 0 < n) (eps : ℝ) (he : 0 ≤ eps) (he1 : eps ≤ 1) (nf : Nat) (x : Nat → Nat → ℝ)
    (hx : ∀ i a, IsFloatE p emax (x i a)) (o : Order) (ho : o.Sums nf)
    (policy : List Nat → Nat → Box ℝ → Nat) (bucketSize maxDepth : Nat)
    (hpol : ∀ idx d box, policy idx d box < nf) (vmax vlowest : ℝ)
    (hj : JoinedBelow n (distsE R o x) ⊤)
    (ord : Orders (WithTop ℝ)) (hord : ord.Valid) (k : Nat) (hk : 1 < k) (hk2 : k < 2 ^ 64)
    (hr : ∀ q, q < n → min k n ≤ inReach R o x n q) :
    ∃ idx' t T, ∃ core : Nat → WithTop ℝ,
      make (eqE R eps) x policy bucketSize maxDepth nf vmax vlowest (List.range n) = some (idx', t) ∧
      (∀ fuel, Nat.log 2 n + 1 ≤ fuel →
        makeTree x (gapE R) (distsE R o x) ⊤ t ord n k fuel = some T) ∧
      IsSpanningTree n T ∧
      (∀ q, q < n → core q < ⊤ ∧ core q ∈ (List.range n).map (distsE R o x q) ∧
        min k n ≤ (((List.range n).map (distsE R o x q)).filter (fun a => a ≤ core q)).length ∧
        (((List.range n).map (distsE R o x q)).filter (fun a =>
          a.map (fun D => (1 + unit p) ^ 2 * (max D ((2 : ℝ) ^ (1 - emax / 2)) + 2 * eps)) < core q)).length <
          min k n) ∧
      (∀ e ∈ T, e.2.2 = max (max (core e.1) (core e.2.1)) (distsE R o x e.1 e.2.1) ∧ e.2.2 < ⊤) ∧
      (k = 2 → ∀ S : List (Edge (WithTop ℝ)), (∀ e ∈ S, e.1 < n ∧ e.2.1 < n) → Connects n S →
        (∀ e ∈ S, e.2.2 = max (max (core e.1) (core e.2.1)) (distsE R o x e.1 e.2.1)) →
        ∀ W : ℝ, total S = (W : WithTop ℝ) →
        total T ≤ (((1 + unit p) ^ 4 *
          (W + (n - 1 : ℕ) * (2 * (2 * eps + (2 : ℝ) ^ (1 - emax / 2)))) : ℝ) : WithTop ℝ)) := by
  obtain ⟨idx', t, e, hpm, hi, hs, ha⟩ :=
    make_E R hp he nf x hx policy bucketSize maxDepth hpol vmax vlowest (List.range n)
  have hmem : ∀ i, i ∈ t.indices ↔ i < n := fun i => by rw [hi, hpm.mem_iff, List.mem_range]
  have ht := goodTree_E R hp hE h4 heven he he1 hx ho hs ha (n := n) (fun i h => (hmem i).1 h)
  obtain ⟨_, _, core, e', hc, hlen, hcore⟩ := C123_core R hp hE h4 heven n hn eps he he1 nf x hx o ho policy
    bucketSize maxDepth hpol vmax vlowest ⊤ k (by omega) hk2
  rw [e] at e'
  obtain ⟨rfl, rfl⟩ := Prod.mk.inj (Option.some.inj e')
  have hcv : ∀ q, q < n → core[q]? = some (core.getD q 0) ∧
      core.getD q 0 ∈ (List.range n).map (distsE R o x q) ∧
      min k n ≤ (((List.range n).map (distsE R o x q)).filter (fun a => a ≤ core.getD q 0)).length ∧
      (((List.range n).map (distsE R o x q)).filter (fun a =>
        a.map (fun D => (1 + unit p) ^ 2 * (max D ((2 : ℝ) ^ (1 - emax / 2)) + 2 * eps)) <
          core.getD q 0)).length < min k n := by
    intro q hq
    obtain ⟨v, h1, h2⟩ := hcore q hq
    have : core.getD q 0 = v := by simp [List.getD_eq_getElem?_getD, h1]
    rw [this]
    exact ⟨h1, h2⟩
  have hclt : ∀ q, q < n → core.getD q 0 < ⊤ := fun q hq =>
    (core_finite R (hcv q hq).2.2.1 (hcv q hq).2.2.2).2 (hr q hq)
  have hf : 0 < 1 + unit p := by linarith [one_le_f (p := p)]
  have hτ := two_zpow_pos (1 - emax / 2)
  -- with two neighbours the core distance is hardly above the distance to any other sample
  have hcore2 : k = 2 → ∀ q i, q < n → i < n → q ≠ i → ∀ d : ℝ, distsE R o x q i = (d : WithTop ℝ) →
      core.getD q 0 ≤ (((1 + unit p) ^ 2 * (d + (2 * eps + (2 : ℝ) ^ (1 - emax / 2))) : ℝ) : WithTop ℝ) := by
    intro h2 q i hq hi hne d hd
    by_contra hlt
    rw [not_le] at hlt
    have hd0 : 0 ≤ d := by
      have := distsE_nonneg R hp (by omega) o x q i
      rw [hd] at this
      exact_mod_cast this
    have h3 := (hcv q hq).2.2.2
    rw [List.filter_map, List.length_map] at h3
    have hb : ∀ D : ℝ, D ≤ d → (((1 + unit p) ^ 2 * (max D ((2 : ℝ) ^ (1 - emax / 2)) + 2 * eps) : ℝ) :
        WithTop ℝ) < core.getD q 0 := by
      intro D hD
      refine lt_of_le_of_lt ?_ hlt
      have h5 : max D ((2 : ℝ) ^ (1 - emax / 2)) ≤ d + (2 : ℝ) ^ (1 - emax / 2) :=
        max_le (by linarith) (by linarith)
      have h6 := mul_le_mul_of_nonneg_left
        (show max D ((2 : ℝ) ^ (1 - emax / 2)) + 2 * eps ≤ d + (2 * eps + (2 : ℝ) ^ (1 - emax / 2)) by
          linarith) (pow_pos hf 2).le
      exact_mod_cast h6
    have hsub : [q, i].Subperm ((List.range n).filter
        ((fun a => decide (WithTop.map (fun D => (1 + unit p) ^ 2 * (max D ((2 : ℝ) ^ (1 - emax / 2)) + 2 * eps))
          a < core.getD q 0)) ∘ distsE R o x q)) := by
      refine List.subperm_of_subset (by simp [hne]) ?_
      intro a ha
      rw [List.mem_filter]
      rcases List.mem_cons.1 ha with rfl | ha
      · refine ⟨by simpa using hq, ?_⟩
        simp only [Function.comp, distsE_self R hp (show 2 ≤ emax by omega), WithTop.map_coe]
        exact decide_eq_true (hb 0 hd0)
      · rw [List.mem_singleton] at ha
        subst ha
        refine ⟨by simpa using hi, ?_⟩
        simp only [Function.comp, hd, WithTop.map_coe]
        exact decide_eq_true (hb d le_rfl)
    have := hsub.length_le
    simp only [List.length_cons, List.length_nil] at this
    omega
  obtain ⟨f0, f', e0, e1, hT, hw, hmin⟩ := makeLoop_top (weight := mutualReach core)
    (wt := fun q i => max (max (core.getD q 0) (core.getD i 0)) (distsE R o x q i)) (M := k = 2)
    (c := (1 + unit p) ^ 4) (slack := 2 * (2 * eps + (2 : ℝ) ^ (1 - emax / 2))) (fuel := Nat.log 2 n + 1) hn ht
    (fun i h => (hmem i).2 h) (distsE_comm R hp (by omega) o x) (distsE_nonneg R hp (by omega) o x)
    (fun d d' hd h => (h.le he hd).trans_lt (WithTop.coe_lt_top _))
    (fun q i hq hi => by
      simp only [mutualReach, (hcv q hq).1, (hcv i hi).1, Option.bind_eq_bind, Option.bind_some])
    (fun q i => le_max_right _ _)
    (fun q i hq hi h => max_lt (max_lt (hclt q hq) (hclt i hi)) h) (pow_pos hf 4)
    (fun h2 q i d' v hq hi hne h0 hnear hle => by
      have h5 := hle.trans (hnear.le he h0)
      obtain ⟨d, hd⟩ := WithTop.ne_top_iff_exists.1 (h5.trans_lt (WithTop.coe_lt_top _)).ne
      rw [← hd] at h5
      have h6 : d ≤ (1 + unit p) ^ 2 * (max v ((2 : ℝ) ^ (1 - emax / 2)) + 2 * eps) := by exact_mod_cast h5
      have h7 : max v ((2 : ℝ) ^ (1 - emax / 2)) ≤ v + (2 : ℝ) ^ (1 - emax / 2) :=
        max_le (by linarith) (by linarith)
      have hF : 1 ≤ (1 + unit p) ^ 2 := one_le_pow₀ one_le_f
      have h8 := hcore2 h2 q i hq hi hne d hd.symm
      have h9 := hcore2 h2 i q hi hq hne.symm d (by rw [distsE_comm R hp (by omega)]; exact hd.symm)
      have h4' : (1 + unit p) ^ 4 = (1 + unit p) ^ 2 * (1 + unit p) ^ 2 := by ring
      have hd' : d ≤ (1 + unit p) ^ 2 * (v + (2 * eps + (2 : ℝ) ^ (1 - emax / 2))) :=
        h6.trans (mul_le_mul_of_nonneg_left (by linarith) (by linarith))
      have hs0 : 0 ≤ 2 * eps + (2 : ℝ) ^ (1 - emax / 2) := by linarith
      generalize (1 + unit p) ^ 2 = F at *
      generalize 2 * eps + (2 : ℝ) ^ (1 - emax / 2) = s at *
      have ha : F * (d + s) ≤ (1 + unit p) ^ 4 * (v + 2 * s) := by
        rw [h4']
        have : d + s ≤ F * (v + 2 * s) := by nlinarith
        nlinarith
      have hb : d ≤ (1 + unit p) ^ 4 * (v + 2 * s) := by
        refine le_trans ?_ ha
        have : 0 ≤ d := by
          have := distsE_nonneg R hp (by omega) o x q i
          rw [← hd] at this
          exact_mod_cast this
        nlinarith
      refine max_le (max_le (h8.trans ?_) (h9.trans ?_)) ?_
      · exact_mod_cast ha
      · exact_mod_cast ha
      · rw [← hd]
        exact_mod_cast hb) hj hord (Nat.lt_succ_self _)
  refine ⟨idx', t, f'.mst, fun q => core.getD q 0, e, fun fuel hfu => makeTree_mono hfu ?_, hT,
    fun q hq => ⟨hclt q hq, (hcv q hq).2⟩, hw, hmin⟩
  simp only [makeTree, e0, Option.bind_eq_bind, Option.bind_some, if_pos hk, hc, e1]

/-- **C127**, otherwise: when one of two samples or more has fewer than `k` samples at a finite computed distance,
its core distance is infinite, no edge with it is below `infinity`, and `make_tree` never ends, even on samples
that are joined by pairs at a finite computed distance. -/
theorem C127_never_ends (hp : 1 ≤ p) (hE : (p : ℤ) + 1 ≤ emax) (h4 : 4 ≤ emax) (heven : Even emax)
    (n : Nat) (hn : 1 < n) (eps : ℝ) (he : 0 ≤ eps) (he1 : eps ≤ 1) (nf : Nat) (x : Nat → Nat → ℝ)
    (hx : ∀ i a, IsFloatE p emax (x i a)) (o : Order) (ho : o.Sums nf)
    (policy : List Nat → Nat → Box ℝ → Nat) (bucketSize maxDepth : Nat)
    (hpol : ∀ idx d box, policy idx d box < nf) (vmax vlowest : ℝ)
    (ord : Orders (WithTop ℝ)) (hord : ord.Valid) (k : Nat) (hk : 1 < k) (hk2 : k < 2 ^ 64)
    (q : Nat) (hq : q < n) (hr : inReach R o x n q < min k n) :
    ∃ idx' t, make (eqE R eps) x policy bucketSize maxDepth nf vmax vlowest (List.range n) =
        some (idx', t) ∧
      ∀ fuel, makeTree x (gapE R) (distsE R o x) ⊤ t ord n k fuel = none := by
  obtain ⟨idx', t, e, hpm, hi, hs, ha⟩ :=
    make_E R hp he nf x hx policy bucketSize maxDepth hpol vmax vlowest (List.range n)
  have hmem : ∀ i, i ∈ t.indices ↔ i < n := fun i => by rw [hi, hpm.mem_iff, List.mem_range]
  have ht := goodTree_E R hp hE h4 heven he he1 hx ho hs ha (n := n) (fun i h => (hmem i).1 h)
  obtain ⟨_, _, core, e', hc, hlen, hcore⟩ := C123_core R hp hE h4 heven n (by omega) eps he he1 nf x hx o ho
    policy bucketSize maxDepth hpol vmax vlowest ⊤ k (by omega) hk2
  rw [e] at e'
  obtain ⟨rfl, rfl⟩ := Prod.mk.inj (Option.some.inj e')
  obtain ⟨f0, e0, h0, hm0⟩ := FInv.init (D := WithTop ℝ) (n := n) (by omega)
  refine ⟨idx', t, e, fun fuel => ?_⟩
  simp only [makeTree, e0, Option.bind_eq_bind, Option.bind_some, if_pos hk, hc]
  cases hl : makeLoop x (gapE R) (distsE R o x) (mutualReach core) ⊤ t ord fuel 0 f0 with
  | none => simp [hl]
  | some f' =>
    have hg : ∀ q, q < n → core[q]? = some (core.getD q 0) := by
      intro q hq
      rw [List.getD_eq_getElem?_getD, List.getElem?_eq_getElem (by omega)]; rfl
    have hJ := makeLoop_joined (wt := fun q i => max (max (core.getD q 0) (core.getD i 0))
      (distsE R o x q i)) ht (fun i h => (hmem i).2 h) (by
        intro q i hq hi
        simp only [mutualReach, hg q hq, hg i hi, Option.bind_eq_bind, Option.bind_some])
      (fun a b => by
        rw [distsE_comm R hp (by omega), max_comm (core.getD a 0)]) hord fuel 0 f0 f' id
      (h0.below hm0) hl
    exfalso
    obtain ⟨v, b1, _, b2, b3⟩ := hcore q hq
    have hv : core.getD q 0 = v := by simp [List.getD_eq_getElem?_getD, b1]
    have htop : ¬ core.getD q 0 < ⊤ := by
      rw [hv, core_finite R b2 b3]
      omega
    obtain ⟨j, hj, hne⟩ : ∃ j, j < n ∧ j ≠ q := by
      by_cases h : q = 0
      · exact ⟨1, hn, by omega⟩
      · exact ⟨0, by omega, by omega⟩
    rcases (hJ q j hq hj).cases_head with h | ⟨i, h, _⟩
    · exact hne h.symm
    · exact htop ((le_max_left _ _).trans (le_max_left _ _) |>.trans_lt h.2.2)

/-- **C127**: exactly when `make_tree` ends. -/
theorem C127_ends_iff (hp : 1 ≤ p) (hE : (p : ℤ) + 1 ≤ emax) (h4 : 4 ≤ emax) (heven : Even emax)
    (n : Nat) (hn : 1 < n) (eps : ℝ) (he : 0 ≤ eps) (he1 : eps ≤ 1) (nf : Nat) (x : Nat → Nat → ℝ)
    (hx : ∀ i a, IsFloatE p emax (x i a)) (o : Order) (ho : o.Sums nf)
    (policy : List Nat → Nat → Box ℝ → Nat) (bucketSize maxDepth : Nat)
    (hpol : ∀ idx d box, policy idx d box < nf) (vmax vlowest : ℝ)
    (ord : Orders (WithTop ℝ)) (hord : ord.Valid) (k : Nat) (hk2 : k < 2 ^ 64) :
    ∃ idx' t, make (eqE R eps) x policy bucketSize maxDepth nf vmax vlowest (List.range n) =
        some (idx', t) ∧
      ((∃ fuel T, makeTree x (gapE R) (distsE R o x) ⊤ t ord n k fuel = some T) ↔
        JoinedBelow n (distsE R o x) ⊤ ∧ ∀ q, q < n → min k n ≤ inReach R o x n q) := by
  obtain ⟨idx', t, e, -⟩ :=
    make_E R hp he nf x hx policy bucketSize maxDepth hpol vmax vlowest (List.range n)
  have same : ∀ {a b}, make (eqE R eps) x policy bucketSize maxDepth nf vmax vlowest (List.range n) =
      some (a, b) → b = t := fun h => (Prod.mk.inj (Option.some.inj (e.symm.trans h))).2.symm
  refine ⟨idx', t, e, ?_, ?_⟩
  · rintro ⟨fuel, T, h⟩
    constructor
    · by_contra hj
      obtain ⟨_, t', e1, h1⟩ := C123_never_ends R hp hE h4 heven n eps he he1 nf x hx o ho policy bucketSize
        maxDepth hpol vmax vlowest hj ord hord k
      rw [same e1] at h1
      exact absurd (h1 fuel) (by rw [h]; simp)
    · intro q hq
      by_contra hr
      by_cases hk : 1 < k
      · obtain ⟨_, t', e1, h1⟩ := C127_never_ends R hp hE h4 heven n hn eps he he1 nf x hx o ho policy bucketSize
          maxDepth hpol vmax vlowest ord hord k hk hk2 q hq (by omega)
        rw [same e1] at h1
        exact absurd (h1 fuel) (by rw [h]; simp)
      · have : 0 < inReach R o x n q := by
          refine List.length_pos_of_mem (a := q) (List.mem_filter.2 ⟨by simpa using hq, ?_⟩)
          rw [distsE_self R hp (by omega)]
          exact decide_eq_true (WithTop.coe_lt_top _)
        omega
  · rintro ⟨hj, hr⟩
    by_cases hk : 1 < k
    · obtain ⟨_, t', T, _, e1, h1, -⟩ := C127_spanning_tree R hp hE h4 heven n (by omega) eps he he1 nf x hx o ho
        policy bucketSize maxDepth hpol vmax vlowest hj ord hord k hk hk2 hr
      rw [same e1] at h1
      exact ⟨_, T, h1 _ le_rfl⟩
    · obtain ⟨_, t', T, e1, h1, -⟩ := C123_spanning_tree R hp hE h4 heven n (by omega) eps he he1 nf x hx o ho
        policy bucketSize maxDepth hpol vmax vlowest hj ord hord k (by omega)
      rw [same e1] at h1
      exact ⟨_, T, h1 _ le_rfl⟩

/-! ### concrete cases -/

/-- Three samples on a line in double precision. -/
noncomputable def spread (i _ : Nat) : ℝ :=
  if i = 1 then (2 : ℝ) ^ (511 : ℤ) else if i = 2 then (2 : ℝ) ^ (512 : ℤ) else 0

theorem spread_isFloat (i a : Nat) : IsFloatE 53 1024 (spread i a) := by
  unfold spread
  split
  · exact isFloatE_zpow (by unfold emin; norm_num)
  · split
    · exact isFloatE_zpow (by unfold emin; norm_num)
    · exact isFloatE_zero

/-- The computed distance of two numbers that differ by a power of two. -/
theorem distE_pow (R : RoundingE 53 1024) {u v : Nat → ℝ} {e : ℤ} (he : 0 ≤ e) (h : |u 0 - v 0| = (2 : ℝ) ^ e) :
    distE R order1 u v = if e < 512 then (((2 : ℝ) ^ e : ℝ) : WithTop ℝ) else ⊤ := by
  have hv := two_zpow_pos e
  have hfl : |R.rnd (u 0 - v 0)| = (2 : ℝ) ^ e := by
    rw [R.abs, h]
    exact R.of_isFloat (isFloatE_zpow (by unfold emin; omega))
  have hsq : R.rnd ((2 : ℝ) ^ e * (2 : ℝ) ^ e) = (2 : ℝ) ^ (e + e) := by
    rw [← zpow_add₀ (by norm_num)]
    exact R.of_isFloat (isFloatE_zpow (by unfold emin; omega))
  have hS : sumU R order1 u v = (2 : ℝ) ^ (e + e) := by
    simp only [sumU, order1, Order.evalU, termU, diffU, hfl, hsq, mul_zero, zero_add, R.zero]
    exact R.of_isFloat (isFloatE_zpow (by unfold emin; omega))
  rw [distE_eq R (by norm_num) (by norm_num), hS]
  by_cases h5 : e < 512
  · rw [if_pos h5, if_pos (zpow_lt_zpow_right₀ (by norm_num) (by omega)), zpow_add₀ (by norm_num),
      Real.sqrt_mul_self hv.le, R.of_isFloat (isFloatE_zpow (by unfold emin; omega))]
  · rw [if_neg h5, if_neg (not_lt.2 (zpow_le_zpow_right₀ (by norm_num) (by omega)))]

theorem spread_near (R : RoundingE 53 1024) :
    distsE R order1 spread 0 1 < ⊤ ∧ distsE R order1 spread 1 2 < ⊤ ∧ distsE R order1 spread 0 2 = ⊤ := by
  have h12 : (2 : ℝ) ^ (512 : ℤ) = 2 * (2 : ℝ) ^ (511 : ℤ) := by
    rw [show (512 : ℤ) = 1 + 511 by norm_num, zpow_add₀ (by norm_num), zpow_one]
  have hp := two_zpow_pos (511 : ℤ)
  have s1 : spread 1 0 = (2 : ℝ) ^ (511 : ℤ) := if_pos rfl
  have s2 : spread 2 0 = (2 : ℝ) ^ (512 : ℤ) := by unfold spread; rw [if_neg (by norm_num), if_pos rfl]
  unfold distsE
  refine ⟨?_, ?_, ?_⟩
  · rw [distE_pow R (e := 511) (by norm_num) (by simp [spread]), if_pos (by norm_num)]
    exact WithTop.coe_lt_top _
  · rw [distE_pow R (e := 511) (by norm_num) (by
      rw [s1, s2, h12, two_mul, add_sub_cancel_right, abs_of_pos hp]), if_pos (by norm_num)]
    exact WithTop.coe_lt_top _
  · rw [distE_pow R (e := 512) (by norm_num) (by simp [spread]), if_neg (by norm_num)]

theorem spread_joined (R : RoundingE 53 1024) : JoinedBelow 3 (distsE R order1 spread) ⊤ := by
  obtain ⟨h1, h2, -⟩ := spread_near R
  have h1' : distsE R order1 spread 1 0 < ⊤ := by rw [distsE_comm R (by norm_num) (by norm_num)]; exact h1
  have h2' : distsE R order1 spread 2 1 < ⊤ := by rw [distsE_comm R (by norm_num) (by norm_num)]; exact h2
  have to1 : ∀ a, a < 3 → Relation.ReflTransGen
      (fun i j => i < 3 ∧ j < 3 ∧ distsE R order1 spread i j < ⊤) a 1 := by
    intro a ha
    have : a = 0 ∨ a = 1 ∨ a = 2 := by omega
    rcases this with rfl | rfl | rfl
    · exact .single ⟨by omega, by omega, h1⟩
    · exact .refl
    · exact .single ⟨by omega, by omega, h2'⟩
  intro a b ha hb
  refine (to1 a ha).trans ?_
  have : b = 0 ∨ b = 1 ∨ b = 2 := by omega
  rcases this with rfl | rfl | rfl
  · exact .single ⟨by omega, by omega, h1'⟩
  · exact .refl
  · exact .single ⟨by omega, by omega, h2⟩

theorem spread_inReach (R : RoundingE 53 1024) :
    inReach R order1 spread 3 0 = 2 ∧ inReach R order1 spread 3 1 = 3 ∧ inReach R order1 spread 3 2 = 2 := by
  obtain ⟨h1, h2, h3⟩ := spread_near R
  have hc := distsE_comm R (by norm_num) (by norm_num) order1 spread
  have hz : ∀ i, distsE R order1 spread i i < ⊤ := fun i => by
    rw [distsE_self R (by norm_num) (by norm_num)]; exact WithTop.coe_lt_top _
  have h3' : ¬ distsE R order1 spread 0 2 < ⊤ := by rw [h3]; exact lt_irrefl _
  have h1' := h1
  have h2' := h2
  have h3'' := h3'
  rw [hc] at h1' h2' h3''
  refine ⟨?_, ?_, ?_⟩ <;>
    simp [inReach, List.range_succ, List.filter_cons, hz, h1, h2, h3', h1', h2', h3'', -not_lt_top_iff,
      -lt_top_iff_ne_top]

/-- **C127**, in double precision, on the samples 0, `2 ^ 511` and `2 ^ 512`: the tree with two neighbours is
found and the search for the one with three never ends. -/
theorem C127_three_counterexample (R : RoundingE 53 1024) (eps : ℝ) (he : 0 ≤ eps) (he1 : eps ≤ 1)
    (policy : List Nat → Nat → Box ℝ → Nat) (bucketSize maxDepth : Nat)
    (hpol : ∀ idx d box, policy idx d box < 1) (vmax vlowest : ℝ)
    (ord : Orders (WithTop ℝ)) (hord : ord.Valid) :
    ∃ idx' t T, make (eqE R eps) spread policy bucketSize maxDepth 1 vmax vlowest (List.range 3) =
        some (idx', t) ∧
      makeTree spread (gapE R) (distsE R order1 spread) ⊤ t ord 3 2 2 = some T ∧ IsSpanningTree 3 T ∧
      ∀ fuel, makeTree spread (gapE R) (distsE R order1 spread) ⊤ t ord 3 3 fuel = none := by
  obtain ⟨r0, r1, r2⟩ := spread_inReach R
  obtain ⟨idx', t, T, core, e1, h1, hT, -⟩ := C127_spanning_tree R (by norm_num) (by norm_num) (by norm_num)
    (by decide) 3 (by norm_num) eps he he1 1 spread spread_isFloat order1 order1_sums policy bucketSize maxDepth
    hpol vmax vlowest (spread_joined R) ord hord 2 (by norm_num) (by norm_num) (fun q hq => by
      have : q = 0 ∨ q = 1 ∨ q = 2 := by omega
      rcases this with rfl | rfl | rfl <;> omega)
  obtain ⟨_, t', e2, h2⟩ := C127_never_ends R (by norm_num) (by norm_num) (by norm_num)
    (by decide) 3 (by norm_num) eps he he1 1 spread spread_isFloat order1 order1_sums policy bucketSize maxDepth
    hpol vmax vlowest ord hord 3 (by norm_num) (by norm_num) 0 (by norm_num) (by omega)
  obtain ⟨rfl, rfl⟩ := Prod.mk.inj (Option.some.inj (e1.symm.trans e2))
  exact ⟨idx', t, T, e1, h1 2 (by decide), hT, h2⟩

end Verif.Rounding
